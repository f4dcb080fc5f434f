import Verif.RWMap.HB
import Verif.SyncCache.Whole
/-!
# What happens before what in `synccache` over the steps of `RWMap` (C159)

The machine of `Sys.lean` with happens-before: the steps are numbered, and for each goroutine, each call of the map and each location that the map synchronizes on
(`RWMap/HB.lean`) there is the set of the steps that happen before what it does next.  A call of the map is made by the goroutine of the call of the cache; it
knows what the goroutine knows.  The atomic accesses to the expirations of entries (item.go lines 25, 29, 33) synchronize too; they are left out here, what is proved
holds without them.
-/
namespace Verif.SyncCache
open RWMap (acqs rels)
variable {K V : Type} [DecidableEq K]

/-! ## The machine -/

structure SClk (K V : Type) where
  /-- the number of steps so far -/
  n : Nat
  /-- the steps that goroutine `i` has made, and those that happen before them -/
  th : Nat → Nat → Prop
  /-- the steps that call `n` of the map has made, and those that happen before them -/
  cl : Nat → Nat → Prop
  /-- the last step that stored to or unlocked the location, and those that happen before it -/
  loc : RWMap.Loc → Nat → Prop
  /-- `hb t u`: step `u` happens before step `t`, or is it -/
  hb : Nat → Nat → Prop
  /-- what the step is -/
  log : Nat → Option (Item K V)

def SClk.init : SClk K V :=
  { n := 0, th := fun _ _ => False, cl := fun _ _ => False, loc := fun _ _ => False, hb := fun _ _ => False, log := fun _ => none }

/-- Goroutine `i` is inside call `n` of the map. -/
def Runs (s : Client K V) (i n : Nat) : Prop := s.wait i = some n ∨ ∃ kind rest, s.st.pc i = .iter ⟨kind, rest, n⟩

/-- The steps that happen before the next step of call `n` of the map, made by `who`, and that step. -/
def SClk.me (prog : Nat → RWMap.Op K Nat) (m : RWMap.State K Nat) (n : Nat) (who : Nat → Prop) (k : SClk K V) (t : Nat) : Prop :=
  k.cl n t ∨ t = k.n ∨ (∃ l ∈ acqs prog m n, k.loc l t) ∨ ∃ i, who i ∧ k.th i t

/-- A step of goroutine `i` in the cache's own code. -/
def SClk.own (i : Nat) (e : Ev K V) (k : SClk K V) : SClk K V :=
  { n := k.n + 1
    th := fun j t => k.th j t ∨ (j = i ∧ t = k.n)
    cl := k.cl
    loc := k.loc
    hb := fun t u => if t = k.n then k.th i u ∨ u = k.n else k.hb t u
    log := fun t => if t = k.n then some (.loc e) else k.log t }

/-- A step of call `n` of the map, made by `who`; the goroutines `learn` take part in it (the call is made, calls the function of `Range`, returns). -/
def SClk.map (prog : Nat → RWMap.Op K Nat) (m : RWMap.State K Nat) (n : Nat) (who learn : Nat → Prop) (x : Option (Item K V)) (k : SClk K V) : SClk K V :=
  { n := k.n + 1
    th := fun j t => k.th j t ∨ (learn j ∧ k.me prog m n who t)
    cl := fun j => if j = n then k.me prog m n who else k.cl j
    loc := fun l => if l ∈ rels prog m n then k.me prog m n who else k.loc l
    hb := fun t u => if t = k.n then k.me prog m n who u else k.hb t u
    log := fun t => if t = k.n then x else k.log t }

/-- The executions of `Sys.lean`, with the order of the steps. -/
inductive HSys (c : Cfg V) (prog : Nat → RWMap.Op K Nat) : List (Item K V) → Client K V → RWMap.State K Nat → SClk K V → Prop where
  | init : HSys c prog [] .init .init .init
  | loc {T s m k i inp s' e} : HSys c prog T s m k → s.loc c i inp = some (s', e) → HSys c prog (T ++ [.loc e]) s' m (k.own i e)
  | tau {T s m k n ord m'} : HSys c prog T s m k → (∀ l, (ord l).Perm l) → RWMap.next ptrEq prog ord true m n = some m' →
      RWMap.event prog m n = [] → HSys c prog T s m' (k.map prog m n (Runs s · n) (fun _ => False) none)
  | sync {T s m k n ord m' e i s'} : HSys c prog T s m k → (∀ l, (ord l).Perm l) → RWMap.next ptrEq prog ord true m n = some m' →
      RWMap.event prog m n = [e] → s.sync c prog i e = some s' →
      HSys c prog (T ++ [.map e]) s' m' (k.map prog m n (· = i) (· = i) (some (.map e)))

variable {c : Cfg V} {prog : Nat → RWMap.Op K Nat} {T : List (Item K V)} {s s' : Client K V} {m m' : RWMap.State K Nat} {k : SClk K V} {i j n a : Nat} {v : V}

theorem HSys.sys (h : HSys c prog T s m k) : Sys c prog T s m := by
  induction h with
  | init => exact .init
  | loc _ h1 ih => exact ih.loc h1
  | tau _ h1 h2 h3 ih => exact ih.tau h1 h2 h3
  | sync _ h1 h2 h3 h4 ih => exact ih.sync h1 h2 h3 h4

/-- Every execution is one with the order of its steps. -/
theorem Sys.hb (h : Sys c prog T s m) : ∃ k, HSys c prog T s m k := by
  induction h with
  | init => exact ⟨_, .init⟩
  | loc _ h1 ih =>
    obtain ⟨k, ih⟩ := ih
    exact ⟨_, ih.loc h1⟩
  | tau _ h1 h2 h3 ih =>
    obtain ⟨k, ih⟩ := ih
    exact ⟨_, ih.tau h1 h2 h3⟩
  | sync _ h1 h2 h3 h4 ih =>
    obtain ⟨k, ih⟩ := ih
    exact ⟨_, ih.sync h1 h2 h3 h4⟩

omit [DecidableEq K] in
theorem filterMap_log {n : Nat} {f g : Nat → Option (Item K V)} (h : ∀ t, t < n → g t = f t) : (List.range n).filterMap g = (List.range n).filterMap f := by
  induction n with
  | zero => rfl
  | succ n ih =>
    rw [List.range_succ, List.filterMap_append, List.filterMap_append, ih fun t ht => h t (by omega)]
    simp [List.filterMap_cons, h n (by omega)]

/-- The trace is what the steps are, one after the other. -/
theorem HSys.trace (h : HSys c prog T s m k) : T = (List.range k.n).filterMap k.log := by
  induction h with
  | init => rfl
  | loc _ _ ih =>
    rename_i k _ _ _ _ _ _
    simp only [SClk.own, List.range_succ, List.filterMap_append]
    rw [filterMap_log (f := k.log) fun t ht => if_neg (by omega), ← ih]
    simp
  | tau _ _ _ _ ih =>
    rename_i k _ _ _ _ _ _ _
    simp only [SClk.map, List.range_succ, List.filterMap_append]
    rw [filterMap_log (f := k.log) fun t ht => if_neg (by omega), ← ih]
    simp
  | sync _ _ _ _ _ ih =>
    rename_i k _ _ _ _ _ _ _ _ _ _ _
    simp only [SClk.map, List.range_succ, List.filterMap_append]
    rw [filterMap_log (f := k.log) fun t ht => if_neg (by omega), ← ih]
    simp

/-! ## Sets of steps -/

/-- With a step also those that happen before it. -/
structure Closed (k : SClk K V) (S : Nat → Prop) : Prop where
  lt : ∀ t, S t → t < k.n
  down : ∀ t u, S t → k.hb t u → S u

structure Order (k : SClk K V) : Prop where
  th : ∀ i, Closed k (k.th i)
  cl : ∀ n, Closed k (k.cl n)
  loc : ∀ l, Closed k (k.loc l)
  hb : ∀ t, Closed k (k.hb t)

omit [DecidableEq K] in
theorem Closed.keep {S : Nat → Prop} {k' : SClk K V} (h : Closed k S) (hn : k.n ≤ k'.n) (hb : ∀ t, t < k.n → k'.hb t = k.hb t) : Closed k' S :=
  ⟨fun t ht => Nat.lt_of_lt_of_le (h.lt t ht) hn, fun t u ht hu => h.down t u ht (by rwa [hb t (h.lt t ht)] at hu)⟩

omit [DecidableEq K] in
theorem Closed.add {S : Nat → Prop} {k' : SClk K V} (h : Closed k S) (hn : k'.n = k.n + 1) (hb : ∀ t, t < k.n → k'.hb t = k.hb t)
    (hb' : ∀ u, k'.hb k.n u → S u ∨ u = k.n) : Closed k' (fun t => S t ∨ t = k.n) := by
  have h1 : Closed k' S := h.keep (by omega) hb
  refine ⟨fun t ht => ?_, fun t u ht hu => ?_⟩
  · rcases ht with ht | rfl
    · exact h1.lt t ht
    · omega
  · rcases ht with ht | rfl
    · exact .inl (h1.down t u ht hu)
    · exact hb' u hu

omit [DecidableEq K] in
theorem Order.init : Order (SClk.init : SClk K V) :=
  ⟨fun _ => ⟨nofun, nofun⟩, fun _ => ⟨nofun, nofun⟩, fun _ => ⟨nofun, nofun⟩, fun _ => ⟨nofun, nofun⟩⟩

omit [DecidableEq K] in
theorem Order.own (h : Order k) (i : Nat) (e : Ev K V) : Order (k.own i e) := by
  have hb : ∀ t, t < k.n → (k.own i e).hb t = k.hb t := fun t ht => by
    funext u; simp only [SClk.own]; rw [if_neg (by omega)]
  have hb' : ∀ u, (k.own i e).hb k.n u → k.th i u ∨ u = k.n := fun u hu => by
    simpa [SClk.own] using hu
  have hn : k.n ≤ (k.own i e).n := Nat.le_succ _
  have hme := (h.th i).add (k' := k.own i e) rfl hb hb'
  refine ⟨fun j => ?_, fun n => (h.cl n).keep hn hb, fun l => (h.loc l).keep hn hb, fun t => ?_⟩
  · by_cases hj : j = i
    · subst hj
      simpa [SClk.own] using hme
    · have := (h.th j).keep hn hb
      simpa [SClk.own, hj] using this
  · by_cases ht : t = k.n
    · subst ht
      simpa [SClk.own] using hme
    · have := (h.hb t).keep hn hb
      simpa [SClk.own, ht] using this

theorem Order.map (h : Order k) (prog : Nat → RWMap.Op K Nat) (m : RWMap.State K Nat) (n : Nat) (who learn : Nat → Prop) (x : Option (Item K V)) :
    Order (k.map prog m n who learn x) := by
  have hb : ∀ t, t < k.n → (k.map prog m n who learn x).hb t = k.hb t := fun t ht => by
    funext u; simp only [SClk.map]; rw [if_neg (by omega)]
  have hb' : (k.map prog m n who learn x).hb k.n = k.me prog m n who := by
    funext u; simp [SClk.map]
  have hn : k.n ≤ (k.map prog m n who learn x).n := Nat.le_succ _
  have hme : Closed (k.map prog m n who learn x) (k.me prog m n who) := by
    refine ⟨fun t ht => ?_, fun t u ht hu => ?_⟩
    · show t < k.n + 1
      rcases ht with ht | rfl | ⟨l, -, ht⟩ | ⟨i, -, ht⟩
      · have := (h.cl n).lt t ht; omega
      · omega
      · have := (h.loc l).lt t ht; omega
      · have := (h.th i).lt t ht; omega
    · rcases ht with ht | rfl | ⟨l, hl, ht⟩ | ⟨i, hi, ht⟩
      · exact .inl (((h.cl n).keep hn hb).down t u ht hu)
      · rwa [hb'] at hu
      · exact .inr (.inr (.inl ⟨l, hl, ((h.loc l).keep hn hb).down t u ht hu⟩))
      · exact .inr (.inr (.inr ⟨i, hi, ((h.th i).keep hn hb).down t u ht hu⟩))
  refine ⟨fun j => ?_, fun j => ?_, fun l => ?_, fun t => ?_⟩
  · have := (h.th j).keep hn hb
    refine ⟨fun t ht => ?_, fun t u ht hu => ?_⟩
    · rcases ht with ht | ⟨-, ht⟩
      · exact this.lt t ht
      · exact hme.lt t ht
    · rcases ht with ht | ⟨hl, ht⟩
      · exact .inl (this.down t u ht hu)
      · exact .inr ⟨hl, hme.down t u ht hu⟩
  · by_cases hj : j = n
    · simpa [SClk.map, hj] using hme
    · have := (h.cl j).keep hn hb
      simpa [SClk.map, hj] using this
  · by_cases hl : l ∈ rels prog m n
    · simpa [SClk.map, hl] using hme
    · have := (h.loc l).keep hn hb
      simpa [SClk.map, hl] using this
  · by_cases ht : t = k.n
    · subst ht
      simpa [SClk.map] using hme
    · have := (h.hb t).keep hn hb
      simpa [SClk.map, ht] using this

theorem HSys.order (h : HSys c prog T s m k) : Order k := by
  induction h with
  | init => exact .init
  | loc _ _ ih => exact ih.own _ _
  | tau _ _ _ _ ih => exact ih.map _ _ _ _ _ _
  | sync _ _ _ _ _ ih => exact ih.map _ _ _ _ _ _

/-! ## Where entries come from -/

/-- The call makes an entry with the value `v`. -/
def Op.Gives (v : V) : Op K V → Prop
  | .store _ w _ | .loadOrStore _ w _ | .newEntry w _ => w = v
  | _ => False

/-- Among the steps `S` is the making of the entry `a`, with the value `v`, and the call, which was given `v`. -/
def From (log : Nat → Option (Item K V)) (S : Nat → Prop) (a : Nat) (v : V) : Prop :=
  ∃ w u j op now d, log w = some (.loc (.call j op)) ∧ op.Gives v ∧ log u = some (.loc (.mk j a v now d)) ∧ S w ∧ S u

def Known (log : Nat → Option (Item K V)) (S : Nat → Prop) (a : Nat) : Prop := ∃ v, From log S a v

/-- Among the steps `S` is a call by `i` that was given `v`. -/
def Given (log : Nat → Option (Item K V)) (S : Nat → Prop) (i : Nat) (v : V) : Prop := ∃ w op, log w = some (.loc (.call i op)) ∧ op.Gives v ∧ S w

omit [DecidableEq K] in
theorem Known.mono {log log' : Nat → Option (Item K V)} {S S' : Nat → Prop} (h : Known log S a) (hS : ∀ t, S t → S' t) (hl : ∀ t, S t → log' t = log t) :
    Known log' S' a := by
  obtain ⟨v, w, u, j, op, now, d, h1, h2, h3, h4, h5⟩ := h
  exact ⟨v, w, u, j, op, now, d, by rw [hl w h4, h1], h2, by rw [hl u h5, h3], hS w h4, hS u h5⟩

omit [DecidableEq K] in
theorem Given.mono {log log' : Nat → Option (Item K V)} {S S' : Nat → Prop} (h : Given log S i v) (hS : ∀ t, S t → S' t) (hl : ∀ t, S t → log' t = log t) :
    Given log' S' i v := by
  obtain ⟨w, op, h1, h2, h3⟩ := h
  exact ⟨w, op, by rw [hl w h3, h1], h2, hS w h3⟩

def SiteOk (G : V → Prop) : Site K V → Prop
  | .los v _ => G v
  | _ => True

def AftOk (G : V → Prop) (N : Nat → Prop) : After K V → Prop
  | .los _ v _ a => G v ∧ N a
  | .lad (some a) => N a
  | _ => True

/-- What is known at each point: `G` are the values that the call was given, `N` the entries whose making is known. -/
def PcKnows (G : V → Prop) (N : Nat → Prop) : PC K V → Prop
  | .stMk _ v _ | .losMk _ v _ | .neMk v _ => G v
  | .stPut _ a | .cvEq _ a _ | .tChk _ a _ _ | .fCall _ a _ | .done (.entry a _) | .done (.ptr a) => N a
  | .losTry _ v _ a => G v ∧ N a
  | .chk _ a st | .chkExp _ a _ st => N a ∧ SiteOk G st
  | .cad _ _ aft | .cbRun aft => AftOk G N aft
  | .cbCall a aft => N a ∧ AftOk G N aft
  | _ => True

section
omit [DecidableEq K]
variable {G G' : V → Prop} {N N' : Nat → Prop}

theorem SiteOk.mono {st : Site K V} (h : SiteOk G st) (hG : ∀ v, G v → G' v) : SiteOk G' st := by
  cases st <;> first | trivial | exact hG _ h

theorem AftOk.mono {aft : After K V} (h : AftOk G N aft) (hG : ∀ v, G v → G' v) (hN : ∀ a, N a → N' a) : AftOk G' N' aft := by
  rcases aft with _ | _ | _ | _ | _ | _ | _ | _ | _ <;> first | trivial | exact ⟨hG _ h.1, hN _ h.2⟩ | exact hN _ h

theorem PcKnows.mono {pc : PC K V} (h : PcKnows G N pc) (hG : ∀ v, G v → G' v) (hN : ∀ a, N a → N' a) : PcKnows G' N' pc := by
  cases pc
  case done r => cases r <;> first | trivial | exact hN _ h
  case chk | chkExp => exact ⟨hN _ h.1, h.2.mono hG⟩
  case cad | cbRun => exact AftOk.mono h hG hN
  case cbCall => exact ⟨hN _ h.1, h.2.mono hG hN⟩
  case losTry => exact ⟨hG _ h.1, hN _ h.2⟩
  all_goals first
    | trivial
    | exact hG _ h
    | exact hN _ h

theorem next_ok {aft : After K V} (b : Bool) (h : AftOk G N aft) : PcKnows G N (aft.next b) := by
  rcases aft with _ | _ | _ | _ | _ | _ | _ | _ | _ <;> cases b <;> first | trivial | exact h.1 | exact h.2

theorem afterDel_ok {aft : After K V} (h : AftOk G N aft) (ha : N a) : PcKnows G N (afterDel c a aft) := by
  unfold afterDel
  split
  · exact ⟨ha, h⟩
  · exact next_ok _ h

theorem live_ok {key : K} {st : Site K V} (h : SiteOk G st) (ha : N a) : PcKnows G N (st.live c key a) := by
  cases st <;> first | exact ha | exact afterDel_ok ha ha

theorem dead_ok {key : K} {st : Site K V} (h : SiteOk G st) (ha : N a) : PcKnows G N (st.dead c key a) := by
  cases st <;> first | trivial | exact afterDel_ok trivial ha

theorem visit_ok {key : K} (it : Iter K) (ha : N a) : PcKnows G N (Iter.visit it key a : PC K V) := by
  unfold Iter.visit
  split
  · trivial
  · exact ha
  · exact ⟨ha, trivial⟩
end

/-! ## The map -/

/-- The steps of the map alone, with their order, are among those of the whole: step `t` of the map is step `f t` of the whole. -/
structure Embed (prog : Nat → RWMap.Op K Nat) (h : List (RWMap.Ev K Nat)) (m : RWMap.State K Nat) (k : SClk K V) (cc : RWMap.Clk K) (f : Nat → Nat) : Prop where
  exec : RWMap.CExec ptrEq prog h m cc
  lt : ∀ t, t < cc.n → f t < k.n
  call : ∀ n t, cc.call n t → t < cc.n ∧ k.cl n (f t)
  loc : ∀ l t, cc.loc l t → t < cc.n ∧ k.loc l (f t)
  put : ∀ b t, cc.put b t → t < cc.n ∧ Known k.log (k.hb (f t)) (prog b).arg

theorem idle_start {ord : List (K × Nat) → List (K × Nat)} {go : Bool} (h : RWMap.next ptrEq prog ord go m n = some m') (hi : (m.pc n).isIdle = true) :
    m'.pc n = .start := by
  cases hp : m.pc n <;> rw [hp] at hi <;> first | (cases hi; done) | skip
  simp only [RWMap.next, hp, Option.some.injEq] at h
  subst h
  simp [RWMap.State.goto]

theorem Embed.map {h : List (RWMap.Ev K Nat)} {cc : RWMap.Clk K} {f : Nat → Nat} (E : Embed prog h m k cc f) (O : Order k)
    (hc : ∀ b, (m.pc b).isIdle = false → ∀ key a, (prog b).Stored key a → Known k.log (k.cl b) a)
    {ord : List (K × Nat) → List (K × Nat)} (ho : ∀ l, (ord l).Perm l) (hn : RWMap.next ptrEq prog ord true m n = some m')
    (who learn : Nat → Prop) (x : Option (Item K V)) :
    Embed prog (h ++ RWMap.event prog m n) m' (k.map prog m n who learn x) (cc.next prog m m' n) (fun t => if t = cc.n then k.n else f t) := by
  have hx := E.exec.step ho hn
  have hme : ∀ t, cc.me prog m n t → t < cc.n + 1 ∧ k.me prog m n who (if t = cc.n then k.n else f t) := by
    intro t ht
    by_cases h0 : t = cc.n
    · rw [if_pos h0]
      exact ⟨by omega, .inr (.inl rfl)⟩
    · rw [if_neg h0]
      rcases ht with ht | ht | ⟨l, hl, ht⟩
      · have := E.call n t ht
        exact ⟨by omega, .inl this.2⟩
      · exact absurd ht h0
      · have := E.loc l t ht
        exact ⟨by omega, .inr (.inr (.inl ⟨l, hl, this.2⟩))⟩
  have hlog : ∀ t, t < k.n → (k.map prog m n who learn x).log t = k.log t := fun t ht => if_neg (by omega)
  refine ⟨hx, fun t ht => ?_, fun j t ht => ?_, fun l t ht => ?_, fun b t ht => ?_⟩
  · show (if t = cc.n then k.n else f t) < k.n + 1
    split
    · omega
    · have ht : t < cc.n + 1 := ht
      have := E.lt t (by omega)
      omega
  · simp only [RWMap.Clk.next] at ht
    simp only [SClk.map]
    by_cases hj : j = n
    · rw [if_pos hj] at ht ⊢
      exact hme t ht
    · rw [if_neg hj] at ht ⊢
      have := E.call j t ht
      rw [if_neg (by omega)]
      exact ⟨Nat.lt_succ_of_lt this.1, this.2⟩
  · simp only [RWMap.Clk.next] at ht
    simp only [SClk.map]
    by_cases hj : l ∈ rels prog m n
    · rw [if_pos hj] at ht ⊢
      exact hme t ht
    · rw [if_neg hj] at ht ⊢
      have := E.loc l t ht
      rw [if_neg (by omega)]
      exact ⟨Nat.lt_succ_of_lt this.1, this.2⟩
  · rcases ht with ht0 | ⟨rfl, rfl, ht⟩
    · have := E.put b t ht0
      rw [if_neg (by omega)]
      refine ⟨Nat.lt_succ_of_lt this.1, this.2.mono (fun u hu => ?_) fun u hu => hlog u ((O.hb _).lt u hu)⟩
      have h1 := E.lt t this.1
      simp only [SClk.map]
      rw [if_neg (by omega)]
      exact hu
    · rw [if_pos rfl]
      refine ⟨Nat.lt_succ_self _, ?_⟩
      obtain ⟨ek, W⟩ := hx.wk
      obtain ⟨h1, ⟨key, h2⟩, -⟩ := W.put b cc.n (.inr ⟨rfl, rfl, ht⟩)
      have h3 : (m.pc b).isIdle = false := by
        cases h4 : (m.pc b).isIdle with
        | false => rfl
        | true =>
          rw [idle_start hn h4] at h1
          cases h1
      refine (hc b h3 key _ h2).mono (fun u hu => ?_) fun u hu => hlog u ((O.cl b).lt u hu)
      show (if k.n = k.n then k.me prog m b who u else k.hb k.n u)
      rw [if_pos rfl]
      exact .inl hu

/-- What a value in the map that call `n` has found, or passed to the function of `Range`, comes from. -/
theorem Embed.known {h : List (RWMap.Ev K Nat)} {cc : RWMap.Clk K} {f : Nat → Nat} (E : Embed prog h m k cc f) (O : Order k) {b a t : Nat}
    (hb : (prog b).arg = a) (hp : cc.put b t) (hk : cc.call n t) : Known k.log (k.cl n) a := by
  subst hb
  exact (E.put b t hp).2.mono (fun u hu => (O.cl n).down _ u (E.call n t hk).2 hu) fun _ _ => rfl

omit [DecidableEq K] in
theorem stored_arg {op : RWMap.Op K Nat} {key : K} (h : op.Stored key a) : op.arg = a := by
  rcases h with rfl | rfl | ⟨u, rfl⟩ <;> rfl

theorem Embed.value {h : List (RWMap.Ev K Nat)} {cc : RWMap.Clk K} {f : Nat → Nat} (E : Embed prog h m k cc f) (O : Order k) {r : RWMap.Res K Nat} {key : K}
    (hr : .ret n r ∈ h) (hv : (prog n).Took ptrEq key r a ∨ (prog n).Saw key r a) : Known k.log (k.cl n) a := by
  obtain ⟨b, u, -, h2, h3, t, h4, h5⟩ := RWMap.rwmap_value_sync E.exec hr hv
  have : u = a := by
    have hp : ∀ {x y : Nat}, ptrEq x y = some true → x = y := by
      intro x y hxy
      simpa using hxy
    rcases hv with (⟨hop, hr⟩ | ⟨z, hop, hr⟩ | ⟨z, hop, hr, hq⟩ | ⟨z, z', hop, hr, hq⟩) | ⟨hop, hr⟩ | ⟨z, hop, hr⟩ <;>
    rcases h3 with (⟨hop', hr'⟩ | ⟨y, hop', hr'⟩ | ⟨y, hop', hr', hq'⟩ | ⟨y, y', hop', hr', hq'⟩) | ⟨hop', hr'⟩ | ⟨y, hop', hr'⟩ <;>
    rw [hop] at hop' <;> rw [hr] at hr' <;> first | (cases hop'; done) | (cases hr'; done) | skip
    all_goals first
      | (cases hr'; rfl)
      | (cases hop'; exact (hp hq').trans (hp hq).symm)
  subst this
  exact E.known O (stored_arg h2) h4 h5

theorem Embed.visit {h : List (RWMap.Ev K Nat)} {cc : RWMap.Clk K} {f : Nat → Nat} (E : Embed prog h m k cc f) (O : Order k) {key : K}
    (hr : .visit n key a ∈ h) : Known k.log (k.cl n) a := by
  obtain ⟨b, -, h2, t, h4, h5⟩ := RWMap.rwmap_visit_sync E.exec hr
  exact E.known O (stored_arg h2) h4 h5

/-! ## The invariant -/

/-- What happens before an event with which the cache gives something away. -/
def EvKnows (log : Nat → Option (Item K V)) (S : Nat → Prop) : Ev K V → Prop
  | .ret _ (.entry a _) | .yield _ _ a => Known log S a
  | .cb _ v => ∃ a, From log S a v
  | _ => True

structure HInv (c : Cfg V) (prog : Nat → RWMap.Op K Nat) (T : List (Item K V)) (s : Client K V) (m : RWMap.State K Nat) (k : SClk K V) : Prop where
  ents : ∀ u j a v now d, k.log u = some (.loc (.mk j a v now d)) → ∃ e, s.st.ents[a]? = some (v, e)
  wait : ∀ i n, s.wait i = some n → (s.st.pc i).mapOp c = some (prog n)
  pc : ∀ i, PcKnows (Given k.log (k.th i) i) (Known k.log (k.th i)) (s.st.pc i)
  calls : ∀ b, (m.pc b).isIdle = false → ∀ key a, (prog b).Stored key a → Known k.log (k.cl b) a
  evs : ∀ t e, k.log t = some (.loc e) → EvKnows k.log (k.hb t) e
  log : ∀ t, k.n ≤ t → k.log t = none
  emb : ∃ cc f, Embed prog (T.filterMap Item.map?) m k cc f

omit [DecidableEq K] in
theorem EvKnows.mono {log log' : Nat → Option (Item K V)} {S S' : Nat → Prop} {e : Ev K V} (h : EvKnows log S e) (hS : ∀ t, S t → S' t) (hl : ∀ t, S t → log' t = log t) :
    EvKnows log' S' e := by
  have hf : ∀ {a : Nat} {v : V}, From log S a v → From log' S' a v := by
    rintro a v ⟨w, u, j, op, now, d, h1, h2, h3, h4, h5⟩
    exact ⟨w, u, j, op, now, d, by rw [hl w h4, h1], h2, by rw [hl u h5, h3], hS w h4, hS u h5⟩
  cases e
  case ret r => cases r <;> first | trivial | exact Known.mono h hS hl
  case yield => exact Known.mono h hS hl
  case cb => exact h.imp fun a => hf
  all_goals trivial

theorem HInv.init : HInv c prog [] (Client.init : Client K V) .init .init where
  ents := nofun
  wait := nofun
  pc _ := trivial
  calls := nofun
  evs := nofun
  log _ _ := rfl
  emb := ⟨.init, id, .init, nofun, nofun, nofun, nofun⟩

/-- A step of the map leaves what is known of the past. -/
theorem HInv.map_evs (H : HInv c prog T s m k) (O : Order k) (n : Nat) (who learn : Nat → Prop) (x : Option (Item K V)) (hx : ∀ e, x ≠ some (.loc e)) :
    ∀ t e, (k.map prog m n who learn x).log t = some (.loc e) → EvKnows (k.map prog m n who learn x).log ((k.map prog m n who learn x).hb t) e := by
  intro t e ht
  have hlog : ∀ t, t < k.n → (k.map prog m n who learn x).log t = k.log t := fun t ht => if_neg (by omega)
  by_cases h0 : t = k.n
  · simp only [SClk.map, h0, if_true] at ht
    exact absurd ht (hx e)
  · have h1 : k.log t = some (.loc e) := by simpa [SClk.map, h0] using ht
    refine (H.evs t e h1).mono (fun u hu => ?_) fun u hu => hlog u ((O.hb t).lt u hu)
    simp only [SClk.map]
    rw [if_neg h0]
    exact hu

theorem HInv.map_ents (H : HInv c prog T s m k) (n : Nat) (who learn : Nat → Prop) (x : Option (Item K V)) (hx : ∀ e, x ≠ some (.loc e)) :
    ∀ u j a v now d, (k.map prog m n who learn x).log u = some (.loc (.mk j a v now d)) → ∃ e, s.st.ents[a]? = some (v, e) := by
  intro u j a v now d hu
  by_cases h0 : u = k.n
  · simp only [SClk.map, h0, if_true] at hu
    exact absurd hu (hx _)
  · exact H.ents u j a v now d (by simpa [SClk.map, h0] using hu)

theorem HInv.map_pc (H : HInv c prog T s m k) (O : Order k) (n : Nat) (who learn : Nat → Prop) (x : Option (Item K V)) :
    ∀ i, PcKnows (Given (k.map prog m n who learn x).log ((k.map prog m n who learn x).th i) i) (Known (k.map prog m n who learn x).log ((k.map prog m n who learn x).th i)) (s.st.pc i) := by
  intro i
  have hlog : ∀ t, t < k.n → (k.map prog m n who learn x).log t = k.log t := fun t ht => if_neg (by omega)
  exact (H.pc i).mono (fun v hv => hv.mono (fun u hu => .inl hu) fun u hu => hlog u ((O.th i).lt u hu))
    (fun v hv => hv.mono (fun u hu => .inl hu) fun u hu => hlog u ((O.th i).lt u hu))

theorem HInv.map_calls (H : HInv c prog T s m k) (O : Order k) (n : Nat) {ord : List (K × Nat) → List (K × Nat)} (hn : RWMap.next ptrEq prog ord true m n = some m')
    (who learn : Nat → Prop) (x : Option (Item K V)) (hinv : (m.pc n).isIdle = true → ∀ key a, (prog n).Stored key a → ∃ i, who i ∧ Known k.log (k.th i) a) :
    ∀ b, (m'.pc b).isIdle = false → ∀ key a, (prog b).Stored key a → Known (k.map prog m n who learn x).log ((k.map prog m n who learn x).cl b) a := by
  intro b hb key a ha
  have hlog : ∀ t, t < k.n → (k.map prog m n who learn x).log t = k.log t := fun t ht => if_neg (by omega)
  by_cases h0 : b = n
  · subst h0
    have hcl : ∀ u, k.me prog m b who u → (k.map prog m b who learn x).cl b u := fun u hu => by
      simp only [SClk.map, if_true]; exact hu
    cases h1 : (m.pc b).isIdle with
    | true =>
      obtain ⟨i, h2, h3⟩ := hinv h1 key a ha
      exact h3.mono (fun u hu => hcl u (.inr (.inr (.inr ⟨i, h2, hu⟩)))) fun u hu => hlog u ((O.th i).lt u hu)
    | false => exact (H.calls b h1 key a ha).mono (fun u hu => hcl u (.inl hu)) fun u hu => hlog u ((O.cl b).lt u hu)
  · rw [RWMap.next_other hn h0] at hb
    refine (H.calls b hb key a ha).mono (fun u hu => ?_) fun u hu => hlog u ((O.cl b).lt u hu)
    simp only [SClk.map, h0, if_false]
    exact hu

theorem HInv.map_log (H : HInv c prog T s m k) (n : Nat) (who learn : Nat → Prop) (x : Option (Item K V)) :
    ∀ t, (k.map prog m n who learn x).n ≤ t → (k.map prog m n who learn x).log t = none := by
  intro t ht
  have ht : k.n + 1 ≤ t := ht
  simp only [SClk.map]
  rw [if_neg (by omega)]
  exact H.log t (by omega)

omit [DecidableEq K] in
theorem idle_event (h : (m.pc n).isIdle = true) : RWMap.event prog m n = [.inv n] := by
  cases hp : m.pc n <;> rw [hp] at h <;> first | (cases h; done) | skip
  simp [RWMap.event, hp]

theorem HInv.tau (H : HInv c prog T s m k) (O : Order k) {ord : List (K × Nat) → List (K × Nat)} (ho : ∀ l, (ord l).Perm l)
    (hn : RWMap.next ptrEq prog ord true m n = some m') (he : RWMap.event prog m n = []) :
    HInv c prog T s m' (k.map prog m n (Runs s · n) (fun _ => False) none) where
  ents := H.map_ents n _ _ _ nofun
  wait := H.wait
  pc := H.map_pc O n _ _ _
  calls := H.map_calls O n hn _ _ _ (fun h => by rw [idle_event h] at he; cases he)
  evs := H.map_evs O n _ _ _ nofun
  log := H.map_log n _ _ _
  emb := by
    obtain ⟨cc, f, E⟩ := H.emb
    have := E.map O H.calls ho hn (Runs s · n) (fun _ => False) none
    rw [he, List.append_nil] at this
    exact ⟨_, _, this⟩

omit [DecidableEq K] in
theorem mapOp_stores {pc : PC K V} {op : RWMap.Op K Nat} {key : K} {G : V → Prop} {N : Nat → Prop} (h : pc.mapOp c = some op) (hs : op.Stored key a) (hp : PcKnows G N pc) : N a := by
  cases pc <;> simp only [PC.mapOp, reduceCtorEq, Option.some.injEq] at h
  case stPut =>
    subst h
    rcases hs with h | h | ⟨u, h⟩ <;> cases h
    exact hp
  case losTry =>
    subst h
    rcases hs with h | h | ⟨u, h⟩ <;> cases h
    exact hp.2
  case clr =>
    split at h
    · cases h
    · injection h with h
      subst h
      rcases hs with h | h | ⟨u, h⟩ <;> cases h
  all_goals
    subst h
    rcases hs with h | h | ⟨u, h⟩ <;> cases h

omit [DecidableEq K] in
/-- What follows a call of the map. -/
theorem cont_ok {pc : PC K V} {op : RWMap.Op K Nat} {r : RWMap.Res K Nat} {G : V → Prop} {N : Nat → Prop} (h : pc.mapOp c = some op) (hp : PcKnows G N pc)
    (hv : ∀ key a, op.Took ptrEq key r a ∨ op.Saw key r a → N a) : PcKnows G N (pc.cont c r) := by
  cases pc <;> simp only [PC.mapOp, reduceCtorEq, Option.some.injEq] at h
  case stPut => trivial
  case ldGet key x =>
    subst h
    rcases r with (_ | a) | _ | _ | _ | _ | _ | _ <;> first | (cases x <;> trivial) | skip
    have := hv key a (.inr (.inl ⟨rfl, rfl⟩))
    cases x <;> exact ⟨this, trivial⟩
  case losTry key v d a =>
    subst h
    rcases r with _ | ⟨b, _ | _⟩ | _ | _ | _ | _ | _ <;> first | exact hp | exact hp.2 | skip
    exact ⟨hv key b (.inr (.inr ⟨a, rfl, rfl⟩)), hp.1⟩
  case delTry key =>
    subst h
    rcases r with (_ | a) | _ | _ | _ | _ | _ | _ <;> first | trivial | skip
    exact afterDel_ok trivial (hv key a (.inl (.inl ⟨rfl, rfl⟩)))
  case ladTry key =>
    subst h
    rcases r with (_ | a) | _ | _ | _ | _ | _ | _ <;> first | trivial | skip
    exact ⟨hv key a (.inl (.inl ⟨rfl, rfl⟩)), trivial⟩
  case cad key a aft =>
    subst h
    rcases r with _ | _ | (_ | _) | _ | _ | _ | _ <;> first | exact hp | exact next_ok _ hp | skip
    exact afterDel_ok hp (hv key a (.inl (.inr (.inr (.inl ⟨a, rfl, rfl, by simp [ptrEq]⟩)))))
  case clr => trivial
  case iStart => exact hp

theorem HInv.sync (H : HInv c prog T s m k) (O : Order k) {ord : List (K × Nat) → List (K × Nat)} {e : RWMap.Ev K Nat} (ho : ∀ l, (ord l).Perm l)
    (hn : RWMap.next ptrEq prog ord true m n = some m') (he : RWMap.event prog m n = [e]) (hs : s.sync c prog i e = some s') :
    HInv c prog (T ++ [.map e]) s' m' (k.map prog m n (· = i) (· = i) (some (.map e))) := by
  obtain ⟨cc, f, E0⟩ := H.emb
  have E := E0.map O H.calls ho hn (· = i) (· = i) (some (.map e))
  rw [he] at E
  have O' := O.map prog m n (· = i) (· = i) (some (Item.map (V := V) e))
  have hpc := H.map_pc O n (· = i) (· = i) (some (.map e))
  have hmem : e ∈ T.filterMap Item.map? ++ [e] := by simp
  -- what the call knows, the goroutine learns
  have learn : ∀ {a}, Known (k.map prog m n (· = i) (· = i) (some (.map e))).log ((k.map prog m n (· = i) (· = i) (some (.map e))).cl n) a →
      Known (k.map prog m n (· = i) (· = i) (some (.map e))).log ((k.map prog m n (· = i) (· = i) (some (.map e))).th i) a := by
    intro a ha
    refine ha.mono (fun u hu => ?_) fun _ _ => rfl
    simp only [SClk.map, if_true] at hu
    exact .inr ⟨rfl, hu⟩
  have hevn : ∀ {b r}, e = .ret b r → b = n := by
    rintro b r rfl
    unfold RWMap.event at he
    repeat' split at he
    all_goals first | (cases he; done) | (cases he; rfl)
  have hevv : ∀ {b key v}, e = .visit b key v → b = n := by
    rintro b key v rfl
    unfold RWMap.event at he
    repeat' split at he
    all_goals first | (cases he; done) | (cases he; rfl)
  have hevi : ∀ {b}, e = .inv b → b = n := by
    rintro b rfl
    unfold RWMap.event at he
    repeat' split at he
    all_goals first | (cases he; done) | (cases he; rfl)
  have key : s'.st.ents = s.st.ents ∧ (∀ j, j ≠ i → s'.st.pc j = s.st.pc j ∧ s'.wait j = s.wait j) ∧
      (∀ b, s'.wait i = some b → (s'.st.pc i).mapOp c = some (prog b)) ∧
      PcKnows (Given (k.map prog m n (· = i) (· = i) (some (.map e))).log ((k.map prog m n (· = i) (· = i) (some (.map e))).th i) i)
        (Known (k.map prog m n (· = i) (· = i) (some (.map e))).log ((k.map prog m n (· = i) (· = i) (some (.map e))).th i)) (s'.st.pc i) := by
    have upd : ∀ {pc : PC K V} {j}, j ≠ i → (s.st.go i pc).pc j = s.st.pc j := fun hj => by simp [State.go, hj]
    cases e with
    | inv b =>
      simp only [Client.sync] at hs
      split at hs
      · rename_i hc
        have hw := hc.1
        split at hs
        · rename_i kind hp
          cases hs
          refine ⟨rfl, fun j hj => ⟨upd hj, rfl⟩, fun b hb => ?_, ?_⟩
          · rw [show s.wait i = none from hw] at hb; cases hb
          · simp [State.go, PcKnows]
        · cases hs
          refine ⟨rfl, fun j hj => ⟨rfl, by simp [hj]⟩, fun b' hb => ?_, hpc i⟩
          simp only [Function.update_self, Option.some.injEq] at hb
          subst hb
          exact hc.2
      · cases hs
    | visit b key a =>
      simp only [Client.sync] at hs
      split at hs
      · rename_i kind d hw hp
        split at hs
        · rename_i hd
          cases hs
          refine ⟨rfl, fun j hj => ⟨upd hj, rfl⟩, fun b hb => ?_, ?_⟩
          · rw [hw] at hb; cases hb
          · simp only [State.go, Function.update_self]
            have := hevv rfl
            subst this
            exact visit_ok _ (learn (E.visit O' hmem))
        · cases hs
      · cases hs
    | ret b r =>
      have hb := hevn rfl
      subst hb
      simp only [Client.sync] at hs
      split at hs
      · rename_i d hw
        split at hs
        · rename_i hd
          subst hd
          cases hs
          refine ⟨rfl, fun j hj => ⟨upd hj, by simp [hj]⟩, fun b hb => ?_, ?_⟩
          · simp at hb
          · simp only [State.go, Function.update_self]
            exact cont_ok (H.wait i _ hw) (hpc i) fun key a ha => learn (E.value O' hmem ha)
        · cases hs
      · rename_i hw
        split at hs
        · split at hs
          · cases hs
            refine ⟨rfl, fun j hj => ⟨upd hj, rfl⟩, fun b hb => ?_, ?_⟩
            · rw [show s.wait i = none from hw] at hb; cases hb
            · simp [State.go, PcKnows]
          · cases hs
        · cases hs
  obtain ⟨k1, k2, k3, k4⟩ := key
  refine ⟨?_, fun j b hb => ?_, fun j => ?_, ?_, H.map_evs O n _ _ _ nofun, H.map_log n _ _ _, ?_⟩
  · rw [k1]; exact H.map_ents n _ _ _ nofun
  · by_cases hj : j = i
    · subst hj; exact k3 b hb
    · rw [(k2 j hj).2] at hb
      rw [(k2 j hj).1]
      exact H.wait j b hb
  · by_cases hj : j = i
    · subst hj; exact k4
    · rw [(k2 j hj).1]
      exact hpc j
  · refine H.map_calls O n hn _ _ _ fun hi key a ha => ⟨i, rfl, ?_⟩
    rw [idle_event hi] at he
    cases he
    simp only [Client.sync] at hs
    split at hs
    · rename_i hc
      exact mapOp_stores hc.2 ha (H.pc i)
    · cases hs
  · rw [List.filterMap_append]
    exact ⟨_, _, E⟩

omit [DecidableEq K] in
theorem own_log {e : Ev K V} {t : Nat} (ht : t < k.n) : (k.own i e).log t = k.log t := if_neg (by omega)

/-- What a step of a goroutine outside the map does to entries, to what it knows, and what it gives away. -/
theorem step_knows {st st' : State K V} {inp : In K V} {e : Ev K V} (h : step c [] st i inp = some (st', e)) (hm : (st.pc i).mapOp c = none)
    (hit : (st.pc i).isIter = false) {G G' : V → Prop} {N N' : Nat → Prop} (hp : PcKnows G N (st.pc i)) (hG : ∀ v, G v → G' v) (hN : ∀ a, N a → N' a)
    (hcall : ∀ op v, e = .call i op → op.Gives v → G' v) (hmk : ∀ a v now d, e = .mk i a v now d → G v → N' a) :
    (∀ (a : Nat) (v : V) (x : Int), st.ents[a]? = some (v, x) → ∃ x', st'.ents[a]? = some (v, x')) ∧
    (∀ (j a : Nat) (v : V) (now d : Int), e = .mk j a v now d → ∃ x, st'.ents[a]? = some (v, x)) ∧
    (∀ j, j ≠ i → st'.pc j = st.pc j) ∧ PcKnows G' N' (st'.pc i) ∧
    (∀ j a b, e = .ret j (.entry a b) → N' a) ∧ (∀ j key a, e = .yield j key a → N' a) ∧
    (∀ j v, e = .cb j v → ∃ (a : Nat) (x : Int), N a ∧ st.ents[a]? = some (v, x)) := by
  have upd : ∀ (s : State K V) (pc : PC K V) j, j ≠ i → (s.go i pc).pc j = s.pc j := fun s pc j hj => by simp [State.go, hj]
  have self : ∀ (s : State K V) (pc : PC K V), (s.go i pc).pc i = pc := fun s pc => by simp [State.go]
  have app : ∀ (w : V) (now d : Int) (a : Nat) (v : V) (x : Int), st.ents[a]? = some (v, x) → ∃ x', (st.mk_ w now d).ents[a]? = some (v, x') := by
    intro w now d a v x hx
    refine ⟨x, ?_⟩
    have := (List.getElem?_eq_some_iff.1 hx).1
    simp only [State.mk_]
    rw [List.getElem?_append_left this, hx]
  have new : ∀ (w : V) (now d : Int), ∃ x, (st.mk_ w now d).ents[st.ents.length]? = some (w, x) := fun w now d => ⟨ms (now + d), by simp [State.mk_]⟩
  have set : ∀ (b : Nat) (y : V × Int) (z : Int), st.ents[b]? = some y → ∀ (a : Nat) (v : V) (x : Int), st.ents[a]? = some (v, x) →
      ∃ x', (st.ents.set b (y.1, z))[a]? = some (v, x') := by
    intro b y z hy a v x hx
    by_cases hab : b = a
    · subst hab
      rw [hy] at hx
      cases hx
      exact ⟨z, by simp [(List.getElem?_eq_some_iff.1 hy).1]⟩
    · exact ⟨x, by rw [List.getElem?_set_ne hab, hx]⟩
  have hp' := PcKnows.mono hp hG hN
  unfold step at h
  split at h <;> first | (cases h; done) | skip
  all_goals
    rename_i hpc
    rw [hpc] at hm hit hp hp'
    first
      | (cases hm; done)
      | (cases hit; done)
      | skip
  · -- idle
    rename_i op
    cases h
    refine ⟨fun a v x hx => ⟨x, hx⟩, nofun, upd _ _, ?_, nofun, nofun, nofun⟩
    rw [self]
    cases op <;> first | trivial | exact hcall _ _ rfl rfl
  · cases h
    refine ⟨app _ _ _, ?_, upd _ _, ?_, nofun, nofun, nofun⟩
    · intro j a v now d he
      cases he
      exact new _ _ _
    · rw [self]
      exact hmk _ _ _ _ rfl hp
  · cases h
    refine ⟨fun a v x hx => ⟨x, hx⟩, nofun, upd _ _, ?_, nofun, nofun, nofun⟩
    rw [self]
    exact hp'
  · -- chkExp
    split at h <;> cases h <;> refine ⟨fun a v x hx => ⟨x, hx⟩, nofun, upd _ _, ?_, nofun, nofun, nofun⟩ <;> rw [self]
    · trivial
    · split
      · exact dead_ok hp'.2 hp'.1
      · exact live_ok hp'.2 hp'.1
  · -- losMk
    cases h
    refine ⟨app _ _ _, ?_, upd _ _, ?_, nofun, nofun, nofun⟩
    · intro j a v now d he
      cases he
      exact new _ _ _
    · rw [self]
      exact ⟨hp', hmk _ _ _ _ rfl hp⟩
  · -- cbCall
    split at h <;> cases h
    · refine ⟨fun a v x hx => ⟨x, hx⟩, nofun, upd _ _, ?_, nofun, nofun, nofun⟩
      rw [self]
      trivial
    · rename_i x hx
      refine ⟨fun a v x hx => ⟨x, hx⟩, nofun, upd _ _, ?_, nofun, nofun, ?_⟩
      · rw [self]
        exact hp'.2
      · intro j v he
        cases he
        exact ⟨_, _, hp.1, hx⟩
  · -- cbRun
    cases h
    refine ⟨fun a v x hx => ⟨x, hx⟩, nofun, upd _ _, ?_, nofun, nofun, nofun⟩
    rw [self]
    split
    · exact next_ok _ hp'
    · trivial
  · -- cvEq
    split at h <;> cases h <;> refine ⟨fun a v x hx => ⟨x, hx⟩, nofun, upd _ _, ?_, nofun, nofun, nofun⟩ <;> rw [self]
    · trivial
    · split <;> trivial
  · -- clr
    split at h <;> cases h <;> refine ⟨fun a v x hx => ⟨x, hx⟩, nofun, upd _ _, ?_, nofun, nofun, nofun⟩ <;> rw [self] <;> trivial
  · -- tChk
    split at h <;> cases h <;> refine ⟨fun a v x hx => ⟨x, hx⟩, nofun, upd _ _, ?_, nofun, nofun, nofun⟩ <;> rw [self]
    · trivial
    · split <;> trivial
  · -- fCall
    cases h
    refine ⟨fun a v x hx => ⟨x, hx⟩, nofun, upd _ _, ?_, nofun, ?_, nofun⟩
    · rw [self]
      trivial
    · intro j key a he
      cases he
      exact hp'
  · -- fRun
    cases h
    refine ⟨fun a v x hx => ⟨x, hx⟩, nofun, upd _ _, ?_, nofun, nofun, nofun⟩
    rw [self]
    split <;> trivial
  · -- tkReg
    cases h
    refine ⟨fun a v x hx => ⟨x, hx⟩, nofun, upd _ _, ?_, nofun, nofun, nofun⟩
    rw [self]
    split <;> trivial
  · -- trNow
    cases h
    refine ⟨fun a v x hx => ⟨x, hx⟩, nofun, upd _ _, ?_, nofun, nofun, nofun⟩
    rw [self]
    trivial
  · -- regPut
    cases h
    refine ⟨fun a v x hx => ⟨x, hx⟩, nofun, upd _ _, ?_, nofun, nofun, nofun⟩
    rw [self]
    trivial
  · -- neMk
    cases h
    refine ⟨app _ _ _, ?_, upd _ _, ?_, nofun, nofun, nofun⟩
    · intro j a v now d he
      cases he
      exact new _ _ _
    · rw [self]
      exact hmk _ _ _ _ rfl hp
  · -- valGet
    cases h
    refine ⟨fun a v x hx => ⟨x, hx⟩, nofun, upd _ _, ?_, nofun, nofun, nofun⟩
    rw [self]
    split <;> trivial
  · -- ieNow
    cases h
    refine ⟨fun a v x hx => ⟨x, hx⟩, nofun, upd _ _, ?_, nofun, nofun, nofun⟩
    rw [self]
    trivial
  · -- ieChk
    split at h <;> cases h <;> refine ⟨fun a v x hx => ⟨x, hx⟩, nofun, upd _ _, ?_, nofun, nofun, nofun⟩ <;> rw [self] <;> trivial
  · -- addE
    split at h <;> cases h
    · refine ⟨fun a v x hx => ⟨x, hx⟩, nofun, upd _ _, ?_, nofun, nofun, nofun⟩
      rw [self]
      trivial
    · rename_i hx
      refine ⟨set _ _ _ hx, nofun, upd _ _, ?_, nofun, nofun, nofun⟩
      rw [self]
      trivial
  · -- setE
    split at h <;> cases h
    · refine ⟨fun a v x hx => ⟨x, hx⟩, nofun, upd _ _, ?_, nofun, nofun, nofun⟩
      rw [self]
      trivial
    · rename_i hx
      refine ⟨set _ _ _ hx, nofun, upd _ _, ?_, nofun, nofun, nofun⟩
      rw [self]
      trivial
  · -- done
    cases h
    refine ⟨fun a v x hx => ⟨x, hx⟩, nofun, upd _ _, ?_, ?_, nofun, nofun⟩
    · rw [self]
      trivial
    · intro j a b he
      cases he
      exact hp'

theorem HInv.loc (H : HInv c prog T s m k) (O : Order k) {inp : In K V} {e : Ev K V} (hs : s.loc c i inp = some (s', e)) :
    HInv c prog (T ++ [.loc e]) s' m (k.own i e) := by
  unfold Client.loc at hs
  split at hs
  · rename_i hc
    obtain ⟨hw, hm, hit⟩ := hc
    cases h : step c [] s.st i inp with
    | none => rw [h] at hs; cases hs
    | some y =>
      obtain ⟨st', e'⟩ := y
      rw [h] at hs
      injection hs with hs
      injection hs with hs1 hs2
      subst hs1
      subst hs2
      have O' := O.own i e'
      have old : ∀ t, t < k.n → (k.own i e').log t = k.log t := fun t ht => own_log ht
      have new : (k.own i e').log k.n = some (.loc e') := if_pos rfl
      have kmono : ∀ {S S' : Nat → Prop} {a : Nat}, Closed k S → (∀ t, S t → S' t) → Known k.log S a → Known (k.own i e').log S' a :=
        fun hS hSS hk => hk.mono hSS fun t ht => old t (hS.lt t ht)
      have gmono : ∀ {j v}, Given k.log (k.th j) j v → Given (k.own i e').log ((k.own i e').th j) j v :=
        fun hk => hk.mono (fun t ht => .inl ht) fun t ht => old t ((O.th _).lt t ht)
      obtain ⟨q1, q2, q3, q4, q5, q6, q7⟩ := step_knows h hm hit (G' := Given (k.own i e').log ((k.own i e').th i) i)
        (N' := Known (k.own i e').log ((k.own i e').th i)) (H.pc i) (fun v hv => gmono hv) (fun a ha => kmono (O.th i) (fun t ht => .inl ht) ha)
        (fun op v he hv => ⟨k.n, op, by rw [new, he], hv, .inr ⟨rfl, rfl⟩⟩)
        (fun a v now d he hv => by
          obtain ⟨w, op, h1, h2, h3⟩ := hv
          exact ⟨v, w, k.n, i, op, now, d, by rw [old w ((O.th i).lt w h3), h1], h2, by rw [new, he], .inl h3, .inr ⟨rfl, rfl⟩⟩)
      have hbn : (k.own i e').hb k.n = fun u => k.th i u ∨ u = k.n := by funext u; simp [SClk.own]
      have thn : (k.own i e').th i = fun u => k.th i u ∨ u = k.n := by funext u; simp [SClk.own]
      refine ⟨fun u j a v now d hu => ?_, fun j b hb => ?_, fun j => ?_, fun b hb key a ha => ?_, fun t e ht => ?_, fun t ht => ?_, ?_⟩
      · by_cases hun : u = k.n
        · subst hun
          rw [new] at hu
          injection hu with hu
          injection hu with hu
          exact q2 j a v now d hu
        · rw [show (k.own i e').log u = k.log u from if_neg hun] at hu
          obtain ⟨x, hx⟩ := H.ents u j a v now d hu
          exact q1 a v x hx
      · by_cases hj : j = i
        · subst hj
          rw [show s.wait j = none from hw] at hb
          cases hb
        · show (st'.pc j).mapOp c = _
          rw [q3 j hj]
          exact H.wait j b hb
      · by_cases hj : j = i
        · subst hj; exact q4
        · show PcKnows _ _ (st'.pc j)
          rw [q3 j hj]
          exact (H.pc j).mono (fun v hv => gmono hv) (fun a ha => kmono (O.th j) (fun t ht => .inl ht) ha)
      · exact kmono (O.cl b) (fun _ h => h) (H.calls b hb key a ha)
      · by_cases htn : t = k.n
        · subst htn
          rw [new] at ht
          injection ht with ht
          injection ht with ht
          subst ht
          rw [hbn, ← thn]
          cases e' with
          | ret j r =>
            cases r <;> first | trivial | exact q5 _ _ _ rfl
          | yield j key a => exact q6 _ _ _ rfl
          | cb j v =>
            obtain ⟨a, x, ⟨v', w, u, j', op, now, d, h1, h2, h3, h4, h5⟩, hx⟩ := q7 _ _ rfl
            obtain ⟨x', hx'⟩ := H.ents u j' a v' now d h3
            rw [hx] at hx'
            cases hx'
            exact ⟨a, w, u, j', op, now, d, by rw [old w ((O.th i).lt w h4), h1], h2, by rw [old u ((O.th i).lt u h5), h3], .inl h4, .inl h5⟩
          | _ => trivial
        · rw [show (k.own i e').log t = k.log t from if_neg htn] at ht
          rw [show (k.own i e').hb t = k.hb t from by funext u; exact if_neg htn]
          exact (H.evs t e ht).mono (fun _ h => h) fun u hu => old u ((O.hb t).lt u hu)
      · rw [show (k.own i e').log t = k.log t from if_neg (by simp only [SClk.own] at ht; omega)]
        exact H.log t (by simp only [SClk.own] at ht; omega)
      · obtain ⟨cc, f, E⟩ := H.emb
        rw [List.filterMap_append, show List.filterMap Item.map? [Item.loc e'] = ([] : List (RWMap.Ev K Nat)) from rfl, List.append_nil]
        refine ⟨cc, f, E.exec, fun t ht => Nat.lt_succ_of_lt (E.lt t ht), E.call, E.loc, fun b t ht => ?_⟩
        obtain ⟨h1, h2⟩ := E.put b t ht
        have hne : f t ≠ k.n := Nat.ne_of_lt (E.lt t h1)
        rw [show (k.own i e').hb (f t) = k.hb (f t) from by funext u; exact if_neg hne]
        exact ⟨h1, kmono (O.hb _) (fun _ h => h) h2⟩
  · cases hs

theorem HSys.inv (h : HSys c prog T s m k) : HInv c prog T s m k := by
  induction h with
  | init => exact .init
  | loc h h1 ih => exact ih.loc h.order h1
  | tau h h1 h2 h3 ih => exact ih.tau h.order h1 h2 h3
  | sync h h1 h2 h3 h4 ih => exact ih.sync h.order h1 h2 h3 h4

/-! ## C159 -/

theorem HSys.past (h : HSys c prog T s m k) : ∀ t u, k.hb t u → u ≤ t := by
  induction h with
  | init => nofun
  | loc h1 h2 ih =>
    intro t u hu
    have ho := (h1.loc h2).order
    simp only [SClk.own] at hu
    split at hu
    · rename_i ht
      have : u < _ := (ho.hb t).lt u (by simp only [SClk.own]; rw [if_pos ht]; exact hu)
      simp only [SClk.own] at this
      omega
    · exact ih t u hu
  | tau h1 h2 h3 h4 ih =>
    intro t u hu
    have ho := (h1.tau h2 h3 h4).order
    simp only [SClk.map] at hu
    split at hu
    · rename_i ht
      have : u < _ := (ho.hb t).lt u (by simp only [SClk.map]; rw [if_pos ht]; exact hu)
      simp only [SClk.map] at this
      omega
    · exact ih t u hu
  | sync h1 h2 h3 h4 h5 ih =>
    intro t u hu
    have ho := (h1.sync h2 h3 h4 h5).order
    simp only [SClk.map] at hu
    split at hu
    · rename_i ht
      have : u < _ := (ho.hb t).lt u (by simp only [SClk.map]; rw [if_pos ht]; exact hu)
      simp only [SClk.map] at this
      omega
    · exact ih t u hu

theorem step_tid {hist : List (Map K)} {st st' : State K V} {inp : In K V} {e : Ev K V} (h : step c hist st i inp = some (st', e)) : e.tid = i := by
  unfold step at h
  repeat' split at h
  all_goals first | (cases h; done) | (cases h; rfl)

theorem loc_tid {inp : In K V} {e : Ev K V} (h : s.loc c i inp = some (s', e)) : e.tid = i := by
  unfold Client.loc at h
  split at h
  · obtain ⟨x, h1, h2⟩ := Option.map_eq_some_iff.1 h
    cases h2
    exact step_tid h1
  · cases h

/-- The goroutine has made its own steps. -/
theorem HSys.mine (h : HSys c prog T s m k) : ∀ t e, k.log t = some (.loc e) → k.th e.tid t ∧ ∀ u e', u ≤ t → k.log u = some (.loc e') → e'.tid = e.tid → k.hb t u := by
  induction h with
  | init => nofun
  | loc h1 h2 ih =>
    rename_i k i inp s' e'
    intro t e ht
    have hi := loc_tid h2
    simp only [SClk.own] at ht ⊢
    split at ht
    · rename_i hn
      injection ht with ht
      injection ht with ht
      subst ht
      refine ⟨.inr ⟨hi, hn⟩, fun u e2 hu h3 h4 => ?_⟩
      rw [if_pos hn]
      split at h3
      · rename_i hu
        exact .inr hu
      · refine .inl ?_
        rw [← hi, ← h4]
        exact (ih u e2 h3).1
    · rename_i hn
      have hlt : t < k.n := Nat.lt_of_not_le fun h => by rw [h1.inv.log t h] at ht; cases ht
      refine ⟨.inl (ih t e ht).1, fun u e2 hu h3 h4 => ?_⟩
      rw [if_neg hn]
      rw [if_neg (by omega)] at h3
      exact (ih t e ht).2 u e2 hu h3 h4
  | tau h1 h2 h3 h4 ih =>
    rename_i k n _ _
    intro t e ht
    simp only [SClk.map] at ht ⊢
    split at ht
    · cases ht
    · rename_i hn
      have hlt : t < k.n := Nat.lt_of_not_le fun h => by rw [h1.inv.log t h] at ht; cases ht
      refine ⟨.inl (ih t e ht).1, fun u e2 hu h3 h4 => ?_⟩
      rw [if_neg hn]
      rw [if_neg (by omega)] at h3
      exact (ih t e ht).2 u e2 hu h3 h4
  | sync h1 h2 h3 h4 h5 ih =>
    rename_i k n _ _ _ _ _
    intro t e ht
    simp only [SClk.map] at ht ⊢
    split at ht
    · cases ht
    · rename_i hn
      have hlt : t < k.n := Nat.lt_of_not_le fun h => by rw [h1.inv.log t h] at ht; cases ht
      refine ⟨.inl (ih t e ht).1, fun u e2 hu h3 h4 => ?_⟩
      rw [if_neg hn]
      rw [if_neg (by omega)] at h3
      exact (ih t e ht).2 u e2 hu h3 h4

/-- **C159**, what is numbered: the steps in the order of the execution, the events of the trace among them; happens-before is transitive, agrees with that
order, and orders the steps of each goroutine. -/
theorem C159_order (h : HSys c prog T s m k) :
    T = (List.range k.n).filterMap k.log ∧ (∀ t u, k.hb t u → u ≤ t) ∧ (∀ t u w, k.hb t u → k.hb u w → k.hb t w) ∧
    ∀ t u e e', k.log t = some (.loc e) → k.log u = some (.loc e') → e'.tid = e.tid → u ≤ t → k.hb t u :=
  ⟨h.trace, h.past, fun t u w hu hw => (h.order.hb t).down u w hu hw, fun t u e e' h1 h2 h3 h4 => (h.mine t e h1).2 u e' h4 h2 h3⟩

/-- **C159**, entries returned: before an entry is returned, it was made with the value that the call of the maker was given; that call, and that making, happen
before the return. -/
theorem C159_entry {b : Bool} {t : Nat} (h : HSys c prog T s m k) (ht : k.log t = some (.loc (.ret i (.entry a b)))) :
    ∃ v w u j op now d, k.log w = some (.loc (.call j op)) ∧ op.Gives v ∧ k.log u = some (.loc (.mk j a v now d)) ∧ k.hb t w ∧ k.hb t u :=
  h.inv.evs t _ ht

/-- **C159**, entries given to the function of `Range`. -/
theorem C159_yield {key : K} {t : Nat} (h : HSys c prog T s m k) (ht : k.log t = some (.loc (.yield i key a))) :
    ∃ v w u j op now d, k.log w = some (.loc (.call j op)) ∧ op.Gives v ∧ k.log u = some (.loc (.mk j a v now d)) ∧ k.hb t w ∧ k.hb t u :=
  h.inv.evs t _ ht

/-- **C159**, values given to the callback: a call that was given this value, and the making of an entry of it, happen before the call of the callback. -/
theorem C159_callback {t : Nat} (h : HSys c prog T s m k) (ht : k.log t = some (.loc (.cb i v))) :
    ∃ a w u j op now d, k.log w = some (.loc (.call j op)) ∧ op.Gives v ∧ k.log u = some (.loc (.mk j a v now d)) ∧ k.hb t w ∧ k.hb t u :=
  h.inv.evs t _ ht

/-- The entry whose fields the cache itself is about to read: lines 70, 86, 99, 111, 119-122, 127, 134, 140. -/
def PC.reads : PC K V → Option Nat
  | .chkExp _ a _ _ | .tChk _ a _ _ | .cbCall a _ | .cvEq _ a _ => some a
  | _ => none

/-- **C159**, the cache's own reads: an entry that is about to be read is there, with the value with which it was made, and its making happens before what the
goroutine does next. -/
theorem C159_reads (h : HSys c prog T s m k) (hp : (s.st.pc i).reads = some a) :
    ∃ v w u j op now d x, k.log w = some (.loc (.call j op)) ∧ op.Gives v ∧ k.log u = some (.loc (.mk j a v now d)) ∧ k.th i w ∧ k.th i u ∧
      s.st.ents[a]? = some (v, x) := by
  have hk := h.inv.pc i
  have : Known k.log (k.th i) a := by
    cases hpc : s.st.pc i <;> rw [hpc] at hp hk <;> cases hp
    exacts [hk.1, hk.1, hk, hk]
  obtain ⟨v, w, u, j, op, now, d, h1, h2, h3, h4, h5⟩ := this
  obtain ⟨x, hx⟩ := h.inv.ents u j a v now d h3
  exact ⟨v, w, u, j, op, now, d, x, h1, h2, h3, h4, h5, hx⟩

/-- Goroutine 0 stores 7; goroutine 2, in `Range`, finds the entry expired, removes it and calls the callback; meanwhile goroutine 1 loads the entry. Storing happens
before both. -/
example : ∃ T s m k, HSys (cfg true) exCalls T s m k ∧
    (∃ t w u, k.log t = some (.loc (.ret 1 (.entry 0 true))) ∧
      k.log w = some (.loc (.call 0 (.store 1 7 10000000))) ∧ k.log u = some (.loc (.mk 0 0 7 100000000 10000000)) ∧ k.hb t w ∧ k.hb t u) ∧
    (∃ t w u, k.log t = some (.loc (.cb 2 7)) ∧
      k.log w = some (.loc (.call 0 (.store 1 7 10000000))) ∧ k.log u = some (.loc (.mk 0 0 7 100000000 10000000)) ∧ k.hb t w ∧ k.hb t u) := by
  obtain ⟨T, s, m, h1, h2⟩ := sysLog_sys exRange
  obtain ⟨k, h⟩ := h1.hb
  have mem : ∀ {t e}, k.log t = some (.loc e) → e.visible = true → e ∈ log T := by
    intro t e ht hv
    have hT : Item.loc e ∈ T := by
      rw [h.trace]
      exact List.mem_filterMap.2 ⟨t, List.mem_range.2 (Nat.lt_of_not_le fun hle => by rw [h.inv.log t hle] at ht; cases ht), ht⟩
    simp only [log, List.mem_filter, List.mem_filterMap]
    exact ⟨⟨_, hT, rfl⟩, hv⟩
  have pos : ∀ {e}, e ∈ log T → ∃ t, k.log t = some (.loc e) := by
    intro e he
    simp only [log, List.mem_filter, List.mem_filterMap] at he
    obtain ⟨⟨x, hx, hxe⟩, -⟩ := he
    cases x <;> cases hxe
    rw [h.trace] at hx
    obtain ⟨t, -, ht⟩ := List.mem_filterMap.1 hx
    exact ⟨t, ht⟩
  rw [h2] at mem pos
  have one : ∀ {v w u j op now d}, k.log w = some (.loc (.call j op)) → op.Gives v → k.log u = some (.loc (.mk j 0 v now d)) →
      k.log w = some (.loc (.call 0 (.store 1 7 10000000))) ∧ k.log u = some (.loc (.mk 0 0 7 100000000 10000000)) := by
    intro v w u j op now d e1 e2 e3
    have m1 := mem e1 rfl
    have m2 := mem e3 rfl
    simp only [List.mem_cons, reduceCtorEq, Ev.mk.injEq, Ev.call.injEq, List.not_mem_nil, false_or, or_false] at m1 m2
    obtain ⟨rfl, -, rfl, rfl, rfl⟩ := m2
    rcases m1 with ⟨-, rfl⟩ | ⟨h, -⟩ | ⟨h, -⟩
    · exact ⟨e1, e3⟩
    · cases h
    · cases h
  refine ⟨T, s, m, k, h, ?_, ?_⟩
  · obtain ⟨t, ht⟩ := pos (e := .ret 1 (.entry 0 true)) (by simp)
    obtain ⟨v, w, u, j, op, now, d, e1, e2, e3, e4, e5⟩ := C159_entry h ht
    exact ⟨t, w, u, ht, (one e1 e2 e3).1, (one e1 e2 e3).2, e4, e5⟩
  · obtain ⟨t, ht⟩ := pos (e := .cb 2 7) (by simp)
    obtain ⟨a, w, u, j, op, now, d, e1, e2, e3, e4, e5⟩ := C159_callback h ht
    have m2 := mem e3 rfl
    simp only [List.mem_cons, reduceCtorEq, Ev.mk.injEq, List.not_mem_nil, false_or, or_false] at m2
    obtain ⟨-, rfl, -⟩ := m2
    exact ⟨t, w, u, ht, (one e1 e2 e3).1, (one e1 e2 e3).2, e4, e5⟩

end Verif.SyncCache
