import Verif.RWMap.Handover
import Verif.RWMap.Whole
import Verif.SyncCache.SysEnds
import Verif.SyncCache.World
import Verif.SyncCache.Whole
/-!
# All caches of a process over the steps of `RWMap` (C162)

`World.lean` with the maps of the caches and the map `caches` (synccache.go line 17) as calls of the `RWMap` machine, step by step as in `Sys.lean`. Each
cache has the threads of `World.lean`: the `t`-th goroutine made in line 23 is thread `2 * t`, the odd ones are those of the user.

Simplified:
* All caches have the same types of keys and values. (They share nothing but `caches`.)
* A panic in the deleted callback of a cache ends the trimmer (in fact the process).
-/
namespace Verif.SyncCache.Proc
open Verif.Refresh (get_snoc get_lt get_keep get_new)
variable {K V : Type}

/-! ## The machine -/

/-- The trimmer: waits for the ticker (line 26), or is in call `n` of `caches.Range` (line 27), in the function for the cache `cur` (line 28) or not. -/
inductive TPos where
  | wait
  | round (n : Nat) (cur : Option Nat)

def TPos.call? : TPos → Option Nat
  | .wait => none
  | .round n _ => some n

/-- The caches and their maps, the map `caches` (line 17), the call of `caches` that thread `i` of cache `c` waits for, `startOnce` (line 18), the calls of
`runTrim`, the number of goroutines made in line 23, and where each is. The field `reg` of the caches is not used. -/
structure Process (K V : Type) where
  cl : Nat → Client K V
  mp : Nat → RWMap.State K Nat
  rg : RWMap.State Nat Unit
  rwait : Nat → Nat → Option Nat
  once : Once
  stage : Nat → Nat → Stage
  trims : Nat
  tpc : Nat → TPos

def Process.init : Process K V := ⟨fun _ => .init, fun _ => .init, .init, fun _ _ => none, .fresh, fun _ _ => .none, 0, fun _ => .wait⟩

/-- Events: of a cache with its map; of `caches`; steps of the maps that cannot be seen; of `runTrim`, as in `World.lean`. -/
inductive GEv (K V : Type) where
  | item (c : Nat) (x : Item K V)
  | reg (e : RWMap.Ev Nat Unit)
  | tau (c : Nat)
  | rtau
  | enter (c i : Nat)
  | skip (c i : Nat)
  | spawn (c i t : Nat)
  | leave (c i : Nat)

/-- Lines 59, 64. `Store` is `Swap`, `Delete` is `LoadAndDelete` (rwmap.go lines 158-160, 310-312). -/
def regOp (c : Nat) (b : Bool) : RWMap.Op Nat Unit := if b then .swap c () else .loadAndDelete c

/-- The comparison of values of `caches`, all `struct{}`. (It is not used.) -/
abbrev uEq (_ _ : Unit) : Option Bool := some true

/-- Accesses to `caches`. -/
def isCaches : PC K V → Bool
  | .tkReg | .regPut _ => true
  | _ => false

def isDone : PC K V → Bool
  | .done _ => true
  | _ => false

def Process.setCl (w : Process K V) (c : Nat) (s : Client K V) : Process K V := { w with cl := Function.update w.cl c s }
def Process.setStage (w : Process K V) (c i : Nat) (g : Stage) : Process K V := { w with stage := fun c' i' => if c' = c ∧ i' = i then g else w.stage c' i' }
def Process.setWait (w : Process K V) (c i : Nat) (o : Option Nat) : Process K V := { w with rwait := fun c' i' => if c' = c ∧ i' = i then o else w.rwait c' i' }
def Process.setT (w : Process K V) (t : Nat) (p : TPos) : Process K V := { w with tpc := Function.update w.tpc t p }

/-- Thread `i` is in cache `c`, and not in `runTrim`. -/
def Process.In (w : Process K V) (c i : Nat) : Prop := (i % 2 = 1 ∧ w.stage c i = .none) ∨ ∃ t n, i = 2 * t ∧ w.tpc t = .round n (some c)

variable [DecidableEq K]

/-- The steps of a process; `prog c` are the calls of the map of cache `c`, `rprog` those of `caches`. -/
inductive PStep (cfg : Nat → Cfg V) (prog : Nat → Nat → RWMap.Op K Nat) (rprog : Nat → RWMap.Op Nat Unit) (w : Process K V) : GEv K V → Process K V → Prop where
  -- in a cache, as in `Sys`
  | loc {c i inp s' e} : w.In c i → inp.isTick = false → isCaches ((w.cl c).st.pc i) = false → (i % 2 = 0 → isDone ((w.cl c).st.pc i) = false) →
      (w.cl c).loc (cfg c) i inp = some (s', e) → PStep cfg prog rprog w (.item c (.loc e)) (w.setCl c s')
  | tau {c n ord m'} : (∀ l, (ord l).Perm l) → RWMap.next ptrEq (prog c) ord true (w.mp c) n = some m' → RWMap.event (prog c) (w.mp c) n = [] →
      PStep cfg prog rprog w (.tau c) { w with mp := Function.update w.mp c m' }
  | sync {c i n ord m' e s'} : w.In c i → (∀ l, (ord l).Perm l) → RWMap.next ptrEq (prog c) ord true (w.mp c) n = some m' → RWMap.event (prog c) (w.mp c) n = [e] →
      (w.cl c).sync (cfg c) (prog c) i e = some s' → PStep cfg prog rprog w (.item c (.map e)) { w.setCl c s' with mp := Function.update w.mp c m' }
  -- inside a call of `caches`
  | rtau {n ord m'} : (∀ l, (ord l).Perm l) → RWMap.next uEq rprog ord true w.rg n = some m' → RWMap.event rprog w.rg n = [] →
      PStep cfg prog rprog w .rtau { w with rg := m' }
  -- `Start`, `Close`, lines 59, 64
  | rinv {c i b n ord m'} : i % 2 = 1 → (w.cl c).st.pc i = .regPut b → (w.cl c).wait i = none → w.rwait c i = none → rprog n = regOp c b →
      (∀ l, (ord l).Perm l) → RWMap.next uEq rprog ord true w.rg n = some m' → RWMap.event rprog w.rg n = [.inv n] →
      PStep cfg prog rprog w (.reg (.inv n)) ({ w with rg := m' }.setWait c i (some n))
  | rret {c i b n r ord m'} : (w.cl c).st.pc i = .regPut b → w.rwait c i = some n →
      (∀ l, (ord l).Perm l) → RWMap.next uEq rprog ord true w.rg n = some m' → RWMap.event rprog w.rg n = [.ret n r] →
      PStep cfg prog rprog w (.reg (.ret n r))
        (((({ w with rg := m' }.setWait c i none).setCl c ⟨(w.cl c).st.go i (.done .unit), (w.cl c).wait⟩)).setStage c i (if b then .want else .none))
  -- `startOnce.Do`, lines 22, 23, 33
  | enter {c i} : w.stage c i = .want → w.once = .fresh → PStep cfg prog rprog w (.enter c i) ({ w with once := .busy }.setStage c i .inside)
  | skip {c i} : w.stage c i = .want → w.once = .done → PStep cfg prog rprog w (.skip c i) (w.setStage c i .none)
  | spawn {c i} : w.stage c i = .inside → PStep cfg prog rprog w (.spawn c i w.trims) ({ w with trims := w.trims + 1 }.setStage c i .leaving)
  | leave {c i} : w.stage c i = .leaving → PStep cfg prog rprog w (.leave c i) ({ w with once := .done }.setStage c i .none)
  -- the trimmer: lines 26-27; its function is called with `c`; line 28 (from line 68 on); lines 29, 30
  | tick {t n ord m'} : w.tpc t = .wait → t < w.trims → rprog n = .range →
      (∀ l, (ord l).Perm l) → RWMap.next uEq rprog ord true w.rg n = some m' → RWMap.event rprog w.rg n = [.inv n] →
      PStep cfg prog rprog w (.reg (.inv n)) ({ w with rg := m' }.setT t (.round n none))
  | visit {t n c ord m'} : w.tpc t = .round n none →
      (∀ l, (ord l).Perm l) → RWMap.next uEq rprog ord true w.rg n = some m' → RWMap.event rprog w.rg n = [.visit n c ()] →
      PStep cfg prog rprog w (.reg (.visit n c ())) (({ w with rg := m' }.setT t (.round n (some c))).setCl c ⟨(w.cl c).st.go (2 * t) .trNow, (w.cl c).wait⟩)
  | back {t n c} : w.tpc t = .round n (some c) → (w.cl c).st.pc (2 * t) = .done .unit → (w.cl c).wait (2 * t) = none →
      PStep cfg prog rprog w (.item c (.loc (.ret (2 * t) .unit))) ((w.setT t (.round n none)).setCl c ⟨(w.cl c).st.go (2 * t) .idle, (w.cl c).wait⟩)
  | fin {t n r ord m'} : w.tpc t = .round n none →
      (∀ l, (ord l).Perm l) → RWMap.next uEq rprog ord true w.rg n = some m' → RWMap.event rprog w.rg n = [.ret n r] →
      PStep cfg prog rprog w (.reg (.ret n r)) ({ w with rg := m' }.setT t .wait)

/-- Sequences of steps. -/
inductive Path (cfg : Nat → Cfg V) (prog : Nat → Nat → RWMap.Op K Nat) (rprog : Nat → RWMap.Op Nat Unit) : Process K V → List (GEv K V) → Process K V → Prop where
  | nil {w} : Path cfg prog rprog w [] w
  | cons {w e w' G w''} : PStep cfg prog rprog w e w' → Path cfg prog rprog w' G w'' → Path cfg prog rprog w (e :: G) w''

/-- The executions of a process. -/
abbrev PExec (cfg : Nat → Cfg V) (prog : Nat → Nat → RWMap.Op K Nat) (rprog : Nat → RWMap.Op Nat Unit) : List (GEv K V) → Process K V → Prop :=
  Path cfg prog rprog .init

/-! ## What one sees of one cache, and of `caches` -/

def GEv.on (c : Nat) : GEv K V → Option (Item K V)
  | .item c' x => if c' = c then some x else none
  | _ => none

def GEv.reg? : GEv K V → Option (RWMap.Ev Nat Unit)
  | .reg e => some e
  | _ => none

/-- The events of cache `c`. -/
def items (c : Nat) (G : List (GEv K V)) : List (Item K V) := G.filterMap (GEv.on c)

/-- The calls of `caches`. -/
def regs (G : List (GEv K V)) : List (RWMap.Ev Nat Unit) := G.filterMap GEv.reg?

variable {cfg : Nat → Cfg V} {prog : Nat → Nat → RWMap.Op K Nat} {rprog : Nat → RWMap.Op Nat Unit} {w w' w'' : Process K V} {G G' : List (GEv K V)} {g : GEv K V}
  {c c' i n t : Nat} {b : Bool}

omit [DecidableEq K] in
theorem regs_snoc : regs (G ++ [g]) = regs G ++ (g.reg?).toList := by
  unfold regs
  rw [List.filterMap_append]
  cases h : g.reg? <;> simp [h]

omit [DecidableEq K] in
theorem items_snoc : items c (G ++ [g]) = items c G ++ (g.on c).toList := by
  unfold items
  rw [List.filterMap_append]
  cases h : g.on c <;> simp [h]

theorem Path.snoc (h : Path cfg prog rprog w G w') (hs : PStep cfg prog rprog w' g w'') : Path cfg prog rprog w (G ++ [g]) w'' := by
  induction h with
  | nil => exact .cons hs .nil
  | cons h1 _ ih => exact .cons h1 (ih hs)

theorem Path.split (h : Path cfg prog rprog w (G ++ G') w'') : ∃ w', Path cfg prog rprog w G w' ∧ Path cfg prog rprog w' G' w'' := by
  induction G generalizing w with
  | nil => exact ⟨w, .nil, h⟩
  | cons e G ih =>
    cases h with
    | cons h1 h2 =>
      obtain ⟨w', h3, h4⟩ := ih h2
      exact ⟨w', .cons h1 h3, h4⟩

/-- Induction from the end. -/
theorem Path.rev {P : List (GEv K V) → Process K V → Prop} (h0 : P [] w) (hs : ∀ {G w' g w''}, Path cfg prog rprog w G w' → P G w' → PStep cfg prog rprog w' g w'' → P (G ++ [g]) w'')
    (h : Path cfg prog rprog w G w') : P G w' := by
  induction G using List.reverseRecOn generalizing w' with
  | nil => cases h; exact h0
  | append_singleton G g ih =>
    obtain ⟨w1, h1, h2⟩ := h.split
    cases h2 with
    | cons h3 h4 => cases h4; exact hs h1 (ih h1) h3

/-! ## Invariants -/

theorem regOp_inj {c c' : Nat} {b b' : Bool} (h : regOp c b = regOp c' b') : c = c' ∧ b = b' := by
  cases b <;> cases b' <;> simp_all [regOp]

theorem regOp_ne_range : regOp c b ≠ .range := by cases b <;> simp [regOp]

theorem regOp_isMap : (regOp c b).isMap = true := by cases b <;> rfl

theorem regOp_writes : (regOp c b).writes c' = decide (c = c') := by cases b <;> simp [regOp, RWMap.Op.writes, RWMap.Op.stores]

theorem caches_exec (h : PExec cfg prog rprog G w) : RWMap.Exec uEq rprog (regs G) w.rg := by
  refine Path.rev (P := fun G w => RWMap.Exec uEq rprog (regs G) w.rg) .init ?_ h
  intro G w g w' _ ih hs
  rw [regs_snoc]
  have ev : ∀ {n ord m' e}, (∀ l : List (Nat × Nat), (ord l).Perm l) → RWMap.next uEq rprog ord true w.rg n = some m' → RWMap.event rprog w.rg n = [e] →
      RWMap.Exec uEq rprog (regs G ++ [e]) m' := fun h1 h2 h3 => h3 ▸ ih.step ⟨_, _, _, h1, h2, rfl⟩
  cases hs with
  | rtau h1 h2 h3 =>
    have := ih.step ⟨_, _, _, h1, h2, rfl⟩
    rw [h3] at this
    exact this
  | rinv _ _ _ _ _ h1 h2 h3 => exact ev h1 h2 h3
  | rret _ _ h1 h2 h3 => exact ev h1 h2 h3
  | tick _ _ _ h1 h2 h3 => exact ev h1 h2 h3
  | visit _ h1 h2 h3 => exact ev h1 h2 h3
  | fin _ h1 h2 h3 => exact ev h1 h2 h3
  | _ => exact (List.append_nil _).symm ▸ ih

/-- Who waits for which call of `caches`. -/
structure PInv (rprog : Nat → RWMap.Op Nat Unit) (G : List (GEv K V)) (w : Process K V) : Prop where
  rw : ∀ c i n, w.rwait c i = some n → i % 2 = 1 ∧ (∃ b, (w.cl c).st.pc i = .regPut b ∧ rprog n = regOp c b) ∧ (w.cl c).wait i = none ∧
    .inv n ∈ regs G ∧ ∀ r, .ret n r ∉ regs G
  rwU : ∀ c i j n, w.rwait c i = some n → w.rwait c j = some n → i = j
  opn : ∀ n, .inv n ∈ regs G → (∃ r, .ret n r ∈ regs G) ∨ (∃ c i, w.rwait c i = some n) ∨ ∃ t, (w.tpc t).call? = some n
  ops : ∀ n, .inv n ∈ regs G → rprog n = .range ∨ ∃ c b, rprog n = regOp c b
  tp : ∀ t n, (w.tpc t).call? = some n → .inv n ∈ regs G ∧ rprog n = .range ∧ ∀ r, .ret n r ∉ regs G
  tpU : ∀ t t' n, (w.tpc t).call? = some n → (w.tpc t').call? = some n → t = t'
  cur : ∀ t n c, w.tpc t = .round n (some c) → .visit n c () ∈ regs G
  idle : ∀ t c, (∀ n, w.tpc t ≠ .round n (some c)) → (w.cl c).st.pc (2 * t) = .idle ∧ (w.cl c).wait (2 * t) = none


theorem loc_other {s s' : Client K V} {cc : Cfg V} {inp : In K V} {e : Ev K V} (h : s.loc cc i inp = some (s', e)) :
    s'.wait = s.wait ∧ s.wait i = none ∧ (∀ j, j ≠ i → s'.st.pc j = s.st.pc j) ∧ step cc [] s.st i inp = some (s'.st, e) := by
  unfold Client.loc at h
  split at h
  · next hc =>
    obtain ⟨x, hx, hy⟩ := Option.map_eq_some_iff.1 h
    cases hy
    exact ⟨rfl, hc.1, fun j hj => (step_Step hx).other hj, hx⟩
  · cases h

theorem sync_other {s s' : Client K V} {cc : Cfg V} {pr : Nat → RWMap.Op K Nat} {e : RWMap.Ev K Nat} (h : s.sync cc pr i e = some s') :
    (∀ j, j ≠ i → s'.st.pc j = s.st.pc j ∧ s'.wait j = s.wait j) ∧ ∀ b, s.wait i = none → s.st.pc i ≠ .regPut b := by
  have go : ∀ (st : State K V) pc j, j ≠ i → (st.go i pc).pc j = st.pc j := fun st pc j hj => by simp [State.go, hj]
  rcases sync_cases h with ⟨n, kind, rfl, h1, h2, h3, rfl⟩ | ⟨n, rfl, h1, h2, h3, rfl⟩ | ⟨n, k, a, kind, rfl, h1, h2, rfl⟩ | ⟨n, r, rfl, h1, rfl⟩ |
      ⟨n, kind, acc, rfl, h1, h2, rfl⟩
  · exact ⟨fun j hj => ⟨go _ _ j hj, rfl⟩, fun b _ hb => by rw [h3] at hb; cases hb⟩
  · exact ⟨fun j hj => ⟨rfl, by simp [hj]⟩, fun b _ hb => by rw [hb] at h2; cases h2⟩
  · exact ⟨fun j hj => ⟨go _ _ j hj, rfl⟩, fun b _ hb => by rw [h2] at hb; cases hb⟩
  · exact ⟨fun j hj => ⟨go _ _ j hj, by simp [hj]⟩, fun b hw _ => by rw [h1] at hw; cases hw⟩
  · exact ⟨fun j hj => ⟨go _ _ j hj, rfl⟩, fun b _ hb => by rw [h2] at hb; cases hb⟩

omit [DecidableEq K] in
theorem In.ne (h : w.In c i) (hi : ∀ n, w.tpc t ≠ .round n (some c)) : i ≠ 2 * t := by
  rintro rfl
  rcases h with ⟨h, _⟩ | ⟨t', n, h1, h2⟩
  · omega
  · have : t' = t := by omega
    subst this
    exact hi n h2

theorem PInv.init : PInv rprog [] (.init : Process K V) where
  rw := fun _ _ _ h => by cases h
  rwU := fun _ _ _ _ h => by cases h
  opn := fun _ h => by cases h
  ops := fun _ h => by cases h
  tp := fun _ _ h => by cases h
  tpU := fun _ _ _ h => by cases h
  cur := fun _ _ _ h => by cases h
  idle := fun _ _ _ => ⟨rfl, rfl⟩

/-- A step that does not touch `caches` nor who waits for it. -/
theorem PInv.quiet (P : PInv rprog G w) (hr : regs G' = regs G) (h1 : w'.rwait = w.rwait) (h2 : ∀ t, (w'.tpc t).call? = (w.tpc t).call?)
    (h3 : ∀ t n c, w'.tpc t = .round n (some c) → w.tpc t = .round n (some c))
    (h4 : ∀ c i n, w.rwait c i = some n → (w'.cl c).st.pc i = (w.cl c).st.pc i ∧ (w'.cl c).wait i = (w.cl c).wait i)
    (h5 : ∀ t c, (∀ n, w'.tpc t ≠ .round n (some c)) → (w'.cl c).st.pc (2 * t) = .idle ∧ (w'.cl c).wait (2 * t) = none) : PInv rprog G' w' where
  rw := fun c i n h => by
    rw [h1] at h
    obtain ⟨a1, a2, a3, a4⟩ := P.rw c i n h
    rw [hr, (h4 c i n h).1, (h4 c i n h).2]
    exact ⟨a1, a2, a3, a4⟩
  rwU := by rw [h1]; exact P.rwU
  opn := by rw [h1, hr]; simp only [h2]; exact P.opn
  ops := by rw [hr]; exact P.ops
  tp := by rw [hr]; simp only [h2]; exact P.tp
  tpU := by simp only [h2]; exact P.tpU
  cur := fun t n c h => by rw [hr]; exact P.cur t n c (h3 t n c h)
  idle := h5

/-- Cache `c` makes a step with thread `i`. -/
theorem PInv.cache (P : PInv rprog G w) (hr : regs G' = regs G) (hin : w.In c i) {s' : Client K V} {m : Nat → RWMap.State K Nat}
    (h1 : ∀ j, j ≠ i → s'.st.pc j = (w.cl c).st.pc j ∧ s'.wait j = (w.cl c).wait j) (h2 : ∀ n, w.rwait c i ≠ some n) :
    PInv rprog G' { w.setCl c s' with mp := m } := by
  refine P.quiet hr rfl (fun _ => rfl) (fun _ _ _ h => h) (fun c' i' n h => ?_) (fun t c' h => ?_)
  · by_cases hc : c' = c
    · subst hc
      have : i' ≠ i := fun hi => h2 n (hi ▸ h)
      simpa [Process.setCl] using h1 i' this
    · simp [Process.setCl, hc]
  · have hq := P.idle t c' h
    by_cases hc : c' = c
    · subst hc
      have := h1 (2 * t) (In.ne hin h).symm
      simpa [Process.setCl, this] using hq
    · simpa [Process.setCl, hc] using hq

theorem inv_new {m : RWMap.State Nat Unit} {h : List (RWMap.Ev Nat Unit)} (hx : RWMap.Exec uEq rprog h m) (he : RWMap.event rprog m n = [.inv n]) :
    .inv n ∉ h ∧ ∀ r, .ret n r ∉ h := by
  have B := RWMap.exec_book hx
  have hp : m.pc n = .idle := by
    rcases RWMap.event_cases (prog := rprog) m n with ⟨h1, h2⟩ | ⟨r, h1, h2⟩ | ⟨k, e, es, acc, v, h1, h2, h3⟩ | h2 <;> simp_all
  exact ⟨fun h => (B.inv n).1 h hp, fun r h => by have := (B.ret n r).1 h; rw [hp] at this; cases this⟩

theorem PInv.step (hG : PExec cfg prog rprog G w) (P : PInv rprog G w) (hs : PStep cfg prog rprog w g w') : PInv rprog (G ++ [g]) w' := by
  have hx := caches_exec hG
  have hr : g.reg? = none → regs (G ++ [g]) = regs G := fun h => by rw [regs_snoc, h]; simp
  have idle1 : ∀ {t : Nat} {c : Nat} {f : Nat → TPos}, (∀ t c, (∀ n, f t ≠ .round n (some c)) → ∀ n, w.tpc t ≠ .round n (some c)) →
      (∀ n, f t ≠ .round n (some c)) → (w.cl c).st.pc (2 * t) = .idle ∧ (w.cl c).wait (2 * t) = none := fun {t c f} hf h => P.idle t c (hf t c h)
  cases hs with
  | @loc c i inp s' e hin ht hc hd hl =>
    obtain ⟨a1, a2, a3, a4⟩ := loc_other hl
    refine P.cache (hr rfl) hin (fun j hj => ⟨a3 j hj, by rw [a1]⟩) (fun n h => ?_)
    obtain ⟨-, ⟨b, hb, -⟩, -⟩ := P.rw c i n h
    rw [hb] at hc
    cases hc
  | tau h1 h2 h3 => exact P.quiet (hr rfl) rfl (fun _ => rfl) (fun _ _ _ h => h) (fun _ _ _ _ => ⟨rfl, rfl⟩) P.idle
  | @sync c i n ord m' e s' hin h1 h2 h3 h4 =>
    obtain ⟨a1, a2⟩ := sync_other h4
    refine P.cache (hr rfl) hin a1 (fun n h => ?_)
    obtain ⟨-, ⟨b, hb, -⟩, hw, -⟩ := P.rw c i n h
    exact a2 b hw hb
  | rtau h1 h2 h3 => exact P.quiet (hr rfl) rfl (fun _ => rfl) (fun _ _ _ h => h) (fun _ _ _ _ => ⟨rfl, rfl⟩) P.idle
  | enter => exact P.quiet (hr rfl) rfl (fun _ => rfl) (fun _ _ _ h => h) (fun _ _ _ _ => ⟨rfl, rfl⟩) P.idle
  | skip => exact P.quiet (hr rfl) rfl (fun _ => rfl) (fun _ _ _ h => h) (fun _ _ _ _ => ⟨rfl, rfl⟩) P.idle
  | spawn => exact P.quiet (hr rfl) rfl (fun _ => rfl) (fun _ _ _ h => h) (fun _ _ _ _ => ⟨rfl, rfl⟩) P.idle
  | leave => exact P.quiet (hr rfl) rfl (fun _ => rfl) (fun _ _ _ h => h) (fun _ _ _ _ => ⟨rfl, rfl⟩) P.idle
  | @back t n c ht hp hw =>
    have htp : ∀ t', ((Function.update w.tpc t (.round n none)) t').call? = (w.tpc t').call? := by
      intro t'
      by_cases h : t' = t
      · subst h; simp [TPos.call?, ht]
      · simp [h]
    refine P.quiet (hr rfl) rfl htp (fun t' n' c' h => ?_) (fun c' i' n' h => ?_) (fun t' c' h => ?_)
    · by_cases hh : t' = t
      · subst hh; simp [Process.setCl, Process.setT] at h
      · simpa [Process.setCl, Process.setT, hh] using h
    · have := (P.rw c' i' n' h).1
      by_cases hc : c' = c
      · subst hc
        have : i' ≠ 2 * t := by omega
        simp [Process.setCl, Process.setT, State.go, this]
      · simp [Process.setCl, Process.setT, hc]
    · by_cases hh : t' = t
      · subst hh
        by_cases hc : c' = c
        · subst hc
          simp [Process.setCl, Process.setT, State.go, hw]
        · have := P.idle t' c' (fun n' h' => by rw [ht] at h'; cases h'; exact hc rfl)
          simpa [Process.setCl, Process.setT, hc] using this
      · have := P.idle t' c' (fun n' h' => h n' (by simpa [Process.setCl, Process.setT, hh] using h'))
        by_cases hc : c' = c
        · subst hc
          have h2 : 2 * t' ≠ 2 * t := by omega
          simpa [Process.setCl, Process.setT, State.go, h2] using this
        · simpa [Process.setCl, Process.setT, hc] using this
  | @rinv c i b n ord m' h1 h2 h3 h4 h5 h6 h7 h8 =>
    have hrg : regs (G ++ [.reg (.inv n)] : List (GEv K V)) = regs G ++ [.inv n] := regs_snoc
    obtain ⟨n1, n2⟩ := inv_new hx h8
    have hret : ∀ {n' r}, RWMap.Ev.ret n' r ∉ regs G → RWMap.Ev.ret n' r ∉ regs G ++ [.inv n] := fun h h' => by simp at h'; exact h h'
    have hwt : ∀ c' i' n', ({ w with rg := m' }.setWait c i (some n)).rwait c' i' = some n' → c' = c ∧ i' = i ∧ n' = n ∨ w.rwait c' i' = some n' := by
      intro c' i' n' h
      simp only [Process.setWait] at h
      split at h
      · next hh => cases h; exact .inl ⟨hh.1, hh.2, rfl⟩
      · exact .inr h
    refine ⟨fun c' i' n' h => ?_, fun c' i' j' n' h h' => ?_, fun n' h => ?_, fun n' h => ?_, fun t n' h => ?_, P.tpU, fun t n' c' h => ?_, P.idle⟩
    · rw [hrg]
      rcases hwt c' i' n' h with ⟨rfl, rfl, rfl⟩ | h
      · exact ⟨h1, ⟨b, h2, h5⟩, h3, by simp, fun r => hret (n2 r)⟩
      · obtain ⟨a1, a2, a3, a4, a5⟩ := P.rw c' i' n' h
        exact ⟨a1, a2, a3, List.mem_append_left _ a4, fun r => hret (a5 r)⟩
    · rcases hwt _ _ _ h with ⟨e1, e2, e3⟩ | h
      · rcases hwt _ _ _ h' with ⟨e1', e2', e3'⟩ | h'
        · rw [e2, e2']
        · exact absurd (e3 ▸ (P.rw _ _ _ h').2.2.2.1) n1
      · rcases hwt _ _ _ h' with ⟨e1', e2', e3'⟩ | h'
        · exact absurd (e3' ▸ (P.rw _ _ _ h).2.2.2.1) n1
        · exact P.rwU _ _ _ _ h h'
    · rw [hrg] at h ⊢
      rcases List.mem_append.1 h with h | h
      · rcases P.opn n' h with ⟨r, hr⟩ | ⟨c', i', h'⟩ | ht
        · exact .inl ⟨r, List.mem_append_left _ hr⟩
        · refine .inr (.inl ⟨c', i', ?_⟩)
          simp only [Process.setWait]
          rw [if_neg]
          · exact h'
          · rintro ⟨rfl, rfl⟩; rw [h4] at h'; cases h'
        · exact .inr (.inr ht)
      · simp at h; subst h
        exact .inr (.inl ⟨c, i, by simp [Process.setWait]⟩)
    · rw [hrg] at h
      rcases List.mem_append.1 h with h | h
      · exact P.ops n' h
      · simp at h; subst h; exact .inr ⟨c, b, h5⟩
    · rw [hrg]
      obtain ⟨a1, a2, a3⟩ := P.tp t n' h
      exact ⟨List.mem_append_left _ a1, a2, fun r => hret (a3 r)⟩
    · rw [hrg]; exact List.mem_append_left _ (P.cur t n' c' h)
  | @rret c i b n r ord m' h1 h2 h3 h4 h5 =>
    have hrg : regs (G ++ [.reg (.ret n r)] : List (GEv K V)) = regs G ++ [.ret n r] := regs_snoc
    have hop : ∃ b, rprog n = regOp c b := (P.rw c i n h2).2.1.imp fun _ h => h.2
    have hret : ∀ {n' r'}, n' ≠ n → RWMap.Ev.ret n' r' ∉ regs G → RWMap.Ev.ret n' r' ∉ regs G ++ [.ret n r] := fun hn h h' => by
      simp at h'; rcases h' with h' | h'
      · exact h h'
      · exact hn h'.1
    have hwt : ∀ c' i' n', (if c' = c ∧ i' = i then none else w.rwait c' i') = some n' → ¬ (c' = c ∧ i' = i) ∧ w.rwait c' i' = some n' := by
      intro c' i' n' h
      split at h
      · cases h
      · next hh => exact ⟨hh, h⟩
    have hne : ∀ c' i' n', ¬ (c' = c ∧ i' = i) → w.rwait c' i' = some n' → n' ≠ n := by
      rintro c' i' n' hh h rfl
      obtain ⟨b', -, hb'⟩ := (P.rw c' i' _ h).2.1
      obtain ⟨b'', hb''⟩ := hop
      have := (regOp_inj (hb'.symm.trans hb'')).1
      subst this
      exact hh ⟨rfl, P.rwU _ _ _ _ h h2⟩
    have hcl : ∀ c' i', ¬ (c' = c ∧ i' = i) → (Function.update w.cl c ⟨(w.cl c).st.go i (.done .unit), (w.cl c).wait⟩ c').st.pc i' = (w.cl c').st.pc i' ∧
        (Function.update w.cl c ⟨(w.cl c).st.go i (.done .unit), (w.cl c).wait⟩ c').wait i' = (w.cl c').wait i' := by
      intro c' i' hh
      by_cases hc : c' = c
      · subst hc
        have : i' ≠ i := fun h => hh ⟨rfl, h⟩
        simp [State.go, this]
      · simp [hc]
    refine ⟨fun c' i' n' h => ?_, fun c' i' j' n' h h' => P.rwU _ _ _ _ (hwt _ _ _ h).2 (hwt _ _ _ h').2, fun n' h => ?_, fun n' h => ?_, fun t n' h => ?_, P.tpU,
      fun t n' c' h => ?_, fun t c' h => ?_⟩
    · rw [hrg]
      obtain ⟨hh, h⟩ := hwt c' i' n' h
      obtain ⟨a1, a2, a3, a4, a5⟩ := P.rw c' i' n' h
      have hp := hcl c' i' hh
      refine ⟨a1, ?_, ?_, List.mem_append_left _ a4, fun r => hret (hne c' i' n' hh h) (a5 r)⟩
      · obtain ⟨b', hb'⟩ := a2
        exact ⟨b', hp.1.trans hb'.1, hb'.2⟩
      · exact hp.2.trans a3
    · rw [hrg] at h ⊢
      have h : RWMap.Ev.inv n' ∈ regs G := by simpa using h
      rcases P.opn n' h with ⟨r, hr⟩ | ⟨c', i', h'⟩ | ht
      · exact .inl ⟨r, List.mem_append_left _ hr⟩
      · by_cases hh : c' = c ∧ i' = i
        · obtain ⟨rfl, rfl⟩ := hh
          rw [h2] at h'; cases h'
          exact .inl ⟨r, by simp⟩
        · exact .inr (.inl ⟨c', i', (if_neg hh).trans h'⟩)
      · exact .inr (.inr ht)
    · rw [hrg] at h
      exact P.ops n' (by simpa using h)
    · rw [hrg]
      obtain ⟨a1, a2, a3⟩ := P.tp t n' h
      refine ⟨List.mem_append_left _ a1, a2, fun r => hret (fun hn => ?_) (a3 r)⟩
      obtain ⟨b', hb'⟩ := hop
      rw [← hn, a2] at hb'
      exact regOp_ne_range hb'.symm
    · rw [hrg]; exact List.mem_append_left _ (P.cur t n' c' h)
    · have hq := P.idle t c' h
      have hp := hcl c' (2 * t) (by rintro ⟨-, rfl⟩; have := (P.rw c _ n h2).1; omega)
      exact ⟨hp.1.trans hq.1, hp.2.trans hq.2⟩
  | @tick t n ord m' h1 h2 h3 h4 h5 h6 =>
    have hrg : regs (G ++ [.reg (.inv n)] : List (GEv K V)) = regs G ++ [.inv n] := regs_snoc
    obtain ⟨n1, n2⟩ := inv_new hx h6
    have hret : ∀ {n' r}, RWMap.Ev.ret n' r ∉ regs G → RWMap.Ev.ret n' r ∉ regs G ++ [.inv n] := fun h h' => by simp at h'; exact h h'
    have htp : ∀ t' n', (Function.update w.tpc t (.round n none) t').call? = some n' → t' = t ∧ n' = n ∨ t' ≠ t ∧ (w.tpc t').call? = some n' := by
      intro t' n' h
      by_cases hh : t' = t
      · subst hh; simp [TPos.call?] at h; exact .inl ⟨rfl, h.symm⟩
      · rw [Function.update_of_ne hh] at h; exact .inr ⟨hh, h⟩
    have hup : ∀ t' n' c', Function.update w.tpc t (.round n none) t' = .round n' (some c') → w.tpc t' = .round n' (some c') := by
      intro t' n' c' h
      by_cases hh : t' = t
      · subst hh; simp at h
      · rwa [Function.update_of_ne hh] at h
    refine ⟨fun c' i' n' h => ?_, P.rwU, fun n' h => ?_, fun n' h => ?_, fun t' n' h => ?_, fun t' t'' n' h h' => ?_,
      fun t' n' c' h => ?_, fun t' c' h => P.idle t' c' fun n' h' => ?_⟩
    · rw [hrg]
      obtain ⟨a1, a2, a3, a4, a5⟩ := P.rw c' i' n' h
      exact ⟨a1, a2, a3, List.mem_append_left _ a4, fun r => hret (a5 r)⟩
    · rw [hrg] at h ⊢
      rcases List.mem_append.1 h with h | h
      · rcases P.opn n' h with ⟨r, hr⟩ | h' | ⟨t', ht⟩
        · exact .inl ⟨r, List.mem_append_left _ hr⟩
        · exact .inr (.inl h')
        · refine .inr (.inr ⟨t', ?_⟩)
          have : t' ≠ t := by rintro rfl; rw [h1] at ht; cases ht
          simpa [Process.setT, this] using ht
      · simp at h; subst h
        exact .inr (.inr ⟨t, by simp [Process.setT, TPos.call?]⟩)
    · rw [hrg] at h
      rcases List.mem_append.1 h with h | h
      · exact P.ops n' h
      · simp at h; subst h; exact .inl h3
    · rw [hrg]
      rcases htp t' n' h with ⟨-, rfl⟩ | ⟨-, h⟩
      · exact ⟨by simp, h3, fun r => hret (n2 r)⟩
      · obtain ⟨a1, a2, a3⟩ := P.tp t' n' h
        exact ⟨List.mem_append_left _ a1, a2, fun r => hret (a3 r)⟩
    · rcases htp _ _ h with ⟨e1, e2⟩ | ⟨-, h⟩ <;> rcases htp _ _ h' with ⟨e1', e2'⟩ | ⟨-, h'⟩
      · rw [e1, e1']
      · exact absurd (e2 ▸ (P.tp _ _ h').1) n1
      · exact absurd (e2' ▸ (P.tp _ _ h).1) n1
      · exact P.tpU _ _ _ h h'
    · rw [hrg]; exact List.mem_append_left _ (P.cur t' n' c' (hup _ _ _ h))
    · by_cases hh : t' = t
      · subst hh; rw [h1] at h'; cases h'
      · exact h n' (by simpa [Process.setT, hh] using h')
  | @visit t n c ord m' h1 h2 h3 h4 =>
    have hrg : regs (G ++ [.reg (.visit n c ())] : List (GEv K V)) = regs G ++ [.visit n c ()] := regs_snoc
    have hret : ∀ {n' r}, RWMap.Ev.ret n' r ∉ regs G → RWMap.Ev.ret n' r ∉ regs G ++ [.visit n c ()] := fun h h' => by simp at h'; exact h h'
    have htp : ∀ t', (Function.update w.tpc t (.round n (some c)) t').call? = (w.tpc t').call? := by
      intro t'
      by_cases hh : t' = t
      · subst hh; simp [TPos.call?, h1]
      · simp [hh]
    have hcl : ∀ c' i', ¬ (c' = c ∧ i' = 2 * t) → (Function.update w.cl c ⟨(w.cl c).st.go (2 * t) .trNow, (w.cl c).wait⟩ c').st.pc i' = (w.cl c').st.pc i' := by
      intro c' i' hh
      by_cases hc : c' = c
      · subst hc
        have : i' ≠ 2 * t := fun h => hh ⟨rfl, h⟩
        simp [State.go, this]
      · simp [hc]
    have hwt : ∀ c', (Function.update w.cl c ⟨(w.cl c).st.go (2 * t) .trNow, (w.cl c).wait⟩ c').wait = (w.cl c').wait := by
      intro c'
      by_cases hc : c' = c
      · subst hc; simp
      · simp [hc]
    refine ⟨fun c' i' n' h => ?_, P.rwU, fun n' h => ?_, fun n' h => ?_, fun t' n' h => ?_, fun t' t'' n' h h' => P.tpU t' t'' n' ((htp t').symm.trans h) ((htp t'').symm.trans h'),
      fun t' n' c' h => ?_, fun t' c' h => ?_⟩
    · rw [hrg]
      obtain ⟨a1, ⟨b, a2, a2'⟩, a3, a4, a5⟩ := P.rw c' i' n' h
      exact ⟨a1, ⟨b, (hcl c' i' (by rintro ⟨-, rfl⟩; omega)).trans a2, a2'⟩, (congrFun (hwt c') i').trans a3, List.mem_append_left _ a4, fun r => hret (a5 r)⟩
    · rw [hrg] at h ⊢
      rcases P.opn n' (by simpa using h) with ⟨r, hr⟩ | h' | ⟨t', ht⟩
      · exact .inl ⟨r, List.mem_append_left _ hr⟩
      · exact .inr (.inl h')
      · exact .inr (.inr ⟨t', (htp t').trans ht⟩)
    · rw [hrg] at h
      exact P.ops n' (by simpa using h)
    · rw [hrg]
      obtain ⟨a1, a2, a3⟩ := P.tp t' n' ((htp t').symm.trans h)
      exact ⟨List.mem_append_left _ a1, a2, fun r => hret (a3 r)⟩
    · rw [hrg]
      by_cases hh : t' = t
      · subst hh
        simp [Process.setT, Process.setCl] at h
        obtain ⟨rfl, rfl⟩ := h
        simp
      · exact List.mem_append_left _ (P.cur t' n' c' (by simpa [Process.setT, Process.setCl, hh] using h))
    · have hq := P.idle t' c' (fun n' h' => by
        by_cases hh : t' = t
        · subst hh; rw [h1] at h'; cases h'
        · exact h n' (by simpa [Process.setT, Process.setCl, hh] using h'))
      refine ⟨(hcl c' (2 * t') ?_).trans hq.1, (congrFun (hwt c') _).trans hq.2⟩
      rintro ⟨rfl, hh⟩
      have : t' = t := by omega
      subst this
      exact h n (by simp [Process.setT, Process.setCl])
  | @fin t n r ord m' h1 h2 h3 h4 =>
    have hrg : regs (G ++ [.reg (.ret n r)] : List (GEv K V)) = regs G ++ [.ret n r] := regs_snoc
    have hop := P.tp t n (by simp [h1, TPos.call?])
    have hret : ∀ {n' r'}, n' ≠ n → RWMap.Ev.ret n' r' ∉ regs G → RWMap.Ev.ret n' r' ∉ regs G ++ [.ret n r] := fun hn h h' => by
      simp at h'; rcases h' with h' | h'
      · exact h h'
      · exact hn h'.1
    have htp : ∀ t' n', (Function.update w.tpc t .wait t').call? = some n' → t' ≠ t ∧ (w.tpc t').call? = some n' := by
      intro t' n' h
      by_cases hh : t' = t
      · subst hh; simp [TPos.call?] at h
      · rw [Function.update_of_ne hh] at h; exact ⟨hh, h⟩
    refine ⟨fun c' i' n' h => ?_, P.rwU, fun n' h => ?_, fun n' h => ?_, fun t' n' h => ?_, fun t' t'' n' h h' => P.tpU t' t'' n' (htp _ _ h).2 (htp _ _ h').2,
      fun t' n' c' h => ?_, fun t' c' h => P.idle t' c' fun n' h' => ?_⟩
    · rw [hrg]
      obtain ⟨a1, a2, a3, a4, a5⟩ := P.rw c' i' n' h
      refine ⟨a1, a2, a3, List.mem_append_left _ a4, fun r => hret ?_ (a5 r)⟩
      rintro rfl
      obtain ⟨b, -, hb⟩ := a2
      rw [hop.2.1] at hb
      exact regOp_ne_range hb.symm
    · rw [hrg] at h ⊢
      rcases P.opn n' (by simpa using h) with ⟨r, hr⟩ | h' | ⟨t', ht⟩
      · exact .inl ⟨r, List.mem_append_left _ hr⟩
      · exact .inr (.inl h')
      · by_cases hh : t' = t
        · subst hh; rw [h1] at ht; cases ht
          exact .inl ⟨r, by simp⟩
        · exact .inr (.inr ⟨t', by simpa [Process.setT, hh] using ht⟩)
    · rw [hrg] at h
      exact P.ops n' (by simpa using h)
    · rw [hrg]
      obtain ⟨hh, h⟩ := htp t' n' h
      obtain ⟨a1, a2, a3⟩ := P.tp t' n' h
      refine ⟨List.mem_append_left _ a1, a2, fun r => hret ?_ (a3 r)⟩
      rintro rfl
      exact hh (P.tpU t' t _ h (by simp [h1, TPos.call?]))
    · rw [hrg]
      refine List.mem_append_left _ (P.cur t' n' c' ?_)
      by_cases hh : t' = t
      · subst hh; simp [Process.setT] at h
      · simpa [Process.setT, hh] using h
    · by_cases hh : t' = t
      · subst hh; rw [h1] at h'; cases h'
      · exact h n' (by simpa [Process.setT, hh] using h')

theorem PExec.inv (h : PExec cfg prog rprog G w) : PInv rprog G w :=
  Path.rev (P := fun G w => PInv rprog G w) .init (fun hG P hs => P.step hG hs) h

end Verif.SyncCache.Proc
