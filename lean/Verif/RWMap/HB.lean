import Verif.RWMap.Maps
import Verif.RWMap.Retain
import Verif.RWMap.Handover
/-!
# What happens before what (C152, C153)

The documentation of `RWMap` (rwmap.go:28-35) says that a write "synchronizes before" any read that observes the effect of the write, in the sense
of the Go memory model.  Here every step of an execution carries the set of the steps that happen before it: those before it in the same call, and
those before an atomic operation whose effect it observes or before the unlocking that its locking follows.  Calls are made by different goroutines
that do not synchronize in any other way.
-/
set_option linter.unusedSectionVars false
namespace Verif.RWMap
variable {K V : Type} [DecidableEq K] [Inhabited V]
variable {eqv : V → V → Option Bool} {prog : Nat → Op K V} {h : List (Ev K V)} {s s' : State K V} {g : Ghost K V} {i j : Nat}
  {ord : List (K × Nat) → List (K × Nat)} {go : Bool} {k : K}

/-- What calls synchronize through: `m.read` rwmap.go:47, `m.mu`, `m.len`, the `p` of an entry 105. -/
inductive Loc where
  | rd | mu | len
  | ent (e : Nat)
  deriving DecidableEq

/-- What the next step of call `i` loads (a swap and a compare-and-swap, successful or not, also load) or locks: `m.read.Load` rwmap.go:115;
`e.p.Load` 150, 169, 182, 253, 269, 316, 332, 452, 567, 572; `CompareAndSwap` 179, 194, 266, 320, 336, 456, 569; `Swap` 201; `mu.Lock` 128 ff.;
`atomic.AddInt64`, `atomic.LoadInt64` of `len` 210, 284, 347, 428, 531. -/
def acqs (prog : Nat → Op K V) (s : State K V) (i : Nat) : List Loc :=
  match s.pc i with
  | .start => match prog i with
    | .len => [.len]
    | _ => [.rd]
  | .acq => [.mu]
  | .crit => [.rd]
  | .ent e _ | .cas e _ _ | .unexp e | .swp e => [.ent e]
  | .copy0 _ => if s.sh.dirty.isSome then [] else [.rd]
  | .copy ((_, e) :: _) _ | .expunge ((_, e) :: _) _ | .rng ((_, e) :: _) _ => [.ent e]
  | .add _ _ => [.len]
  | _ => []

/-- What the next step of call `i` stores to or unlocks: `newEntry` rwmap.go:108-112, a successful compare-and-swap, `Swap` 201,
`m.read.Store` 237, 382, 490, 521, 547, `mu.Unlock`, `atomic.AddInt64`.  (`m.len = 0` in `Clear`, rwmap.go:527, is not atomic.) -/
def rels (prog : Nat → Op K V) (s : State K V) (i : Nat) : List Loc :=
  match s.pc i with
  | .crit => if (critStep s.sh i (prog i)).1.fresh = s.sh.fresh then [] else [.ent s.sh.fresh]
  | .cas e _ p => if s.sh.ent e = p then [.ent e] else []
  | .unexp e => if s.sh.ent e = .exp then [.ent e] else []
  | .swp e => [.ent e]
  | .expunge ((_, e) :: _) _ => if s.sh.ent e = .nil then [.ent e] else []
  | .amend _ => [.rd, .ent s.sh.fresh]
  | .promo _ | .wipe => [.rd]
  | .unl _ => [.mu]
  | .add _ _ => [.len]
  | _ => []

/-- The box a lookup of `k` finds in the map; `nil` and `expunged` are nothing. -/
def content (h : Sh K) (k : K) : Option Nat :=
  (cur h k).bind fun e => match h.ent e with
    | .val b => some b
    | _ => none

/-- A step of call `i` is a write of `k`: it changes what is in the map for `k`, or it is the one with which `Clear` empties the map, or
the one with which `LoadAndDelete` deletes the entry of `k` (which may have no value any more). -/
def Wrote (prog : Nat → Op K V) (s s' : State K V) (i : Nat) (k : K) : Prop :=
  content s'.sh k ≠ content s.sh k ∨ s.pc i = .wipe ∨ (prog i = .loadAndDelete k ∧ cur s.sh k ≠ none ∧ cur s'.sh k = none)

def PC.isIdle : PC K V → Bool
  | .idle => true
  | _ => false

/-- Steps are numbered. -/
structure Clk (K : Type) where
  /-- the number of steps so far -/
  n : Nat
  /-- the steps that call `i` has made, and those that happen before them -/
  call : Nat → Nat → Prop
  /-- the last step that stored to or unlocked the location, and those that happen before it -/
  loc : Loc → Nat → Prop
  /-- the invocation of call `i` -/
  inv : Nat → Nat
  /-- the writes of `k` -/
  wr : K → Nat → Prop
  /-- the writes of `k` that change what is in the map for `k` -/
  chg : K → Nat → Prop
  /-- the step with which call `i` puts its value into an entry -/
  put : Nat → Nat → Prop

def Clk.init : Clk K :=
  { n := 0, call := fun _ _ => False, loc := fun _ _ => False, inv := fun _ => 0, wr := fun _ _ => False, chg := fun _ _ => False, put := fun _ _ => False }

/-- The steps that happen before the next step of call `i`, and that step. -/
def Clk.me (prog : Nat → Op K V) (s : State K V) (i : Nat) (c : Clk K) (t : Nat) : Prop :=
  c.call i t ∨ t = c.n ∨ ∃ l ∈ acqs prog s i, c.loc l t

/-- Call `i` makes the step from `s` to `s'`. -/
def Clk.next (prog : Nat → Op K V) (s s' : State K V) (i : Nat) (c : Clk K) : Clk K :=
  { n := c.n + 1
    call := fun j => if j = i then c.me prog s i else c.call j
    loc := fun l => if l ∈ rels prog s i then c.me prog s i else c.loc l
    inv := fun j => if j = i ∧ (s.pc i).isIdle = true then c.n else c.inv j
    wr := fun k t => c.wr k t ∨ (t = c.n ∧ Wrote prog s s' i k)
    chg := fun k t => c.chg k t ∨ (t = c.n ∧ content s'.sh k ≠ content s.sh k)
    put := fun b t => c.put b t ∨ (t = c.n ∧ b = i ∧ ∃ e, s'.sh.ent e ≠ s.sh.ent e ∧ s'.sh.ent e = .val i) }

/-- Executions with the order of the steps. -/
inductive CExec (eqv : V → V → Option Bool) (prog : Nat → Op K V) : List (Ev K V) → State K V → Clk K → Prop
  | init : CExec eqv prog [] State.init Clk.init
  | step {h s c i ord go s'} : CExec eqv prog h s c → (∀ l, (ord l).Perm l) → next eqv prog ord go s i = some s' →
      CExec eqv prog (h ++ event prog s i) s' (c.next prog s s' i)

theorem CExec.exec {c : Clk K} (hx : CExec eqv prog h s c) : Exec eqv prog h s := by
  induction hx with
  | init => exact .init
  | step _ ho hn ih => exact ih.step ⟨_, _, _, ho, hn, rfl⟩

/-- Every execution is one with the order of its steps. -/
theorem Exec.hb (hx : Exec eqv prog h s) : ∃ c, CExec eqv prog h s c := by
  induction hx with
  | init => exact ⟨_, .init⟩
  | step _ hs ih =>
    obtain ⟨c, ih⟩ := ih
    obtain ⟨i, ord, go, ho, hn, rfl⟩ := hs
    exact ⟨_, ih.step ho hn⟩

/-! ## What a step does to the entries -/

theorem cur_put_same {h h' : Sh K} {d : List (K × Nat)} {k : K} {e : Nat} (h1 : h'.read = h.read) (hd : h.dirty = some d)
    (h2 : h'.dirty = some (aput d k e)) (hr : aget h.read.m k = some e) (k' : K) : cur h' k' = cur h k' := by
  unfold cur
  rw [h1, h2, hd]
  by_cases hk : k = k'
  · subst hk; rw [hr]
  · simp [aget_aput, hk]

omit [Inhabited V] in
theorem fresh_cases (h : Sh K) (i : Nat) (k : K) (r : Res K V) : (∃ d, h.dirty = some d) → (putNew h i k r).1.fresh = h.fresh + 1 ∧
    (putNew h i k r).1.ent h.fresh = .val i := by
  rintro ⟨d, hd⟩
  simp [putNew, hd]

/-- How the entry a lookup finds changes. -/
theorem next_cur (I : Inv eqv prog s g) (hn : next eqv prog ord go s i = some s') (k : K) :
    cur s'.sh k = cur s.sh k ∨
    (∃ nx e, s.pc i = .promo nx ∧ cur s.sh k = some e ∧ s.sh.ent e = .exp ∧ cur s'.sh k = none) ∨
    (cur s.sh k = none ∧ cur s'.sh k = some s.sh.fresh ∧ s'.sh.fresh = s.sh.fresh + 1 ∧ (prog i).key? = some k ∧
      s'.sh.ent s.sh.fresh = .val i ∧ (.ent s.sh.fresh) ∈ rels prog s i ∧ s'.pc i = .unl (.res (newRes (prog i)))) ∨
    (s.pc i = .crit ∧ prog i = .loadAndDelete k ∧ s.sh.read.amended = true ∧ s'.sh.read = s.sh.read ∧ cur s.sh k ≠ none ∧ cur s'.sh k = none) ∨
    (s.pc i = .wipe ∧ cur s'.sh k = none ∧ s'.sh.read.amended = false) := by
  have hO := I.ops i
  cases hl : (s.pc i).locked with
  | false =>
    obtain ⟨h1, h2, _⟩ := other_next I hn hl
    exact Or.inl (cur_congr h1 h2 k)
  | true =>
  have hD := next_dirty I hn
  have hR := next_read I hn
  have same : s'.sh.read = s.sh.read → s'.sh.dirty = s.sh.dirty → cur s'.sh k = cur s.sh k := fun h1 h2 => cur_congr h1 h2 k
  cases hc : s.pc i with
  | crit =>
    have hC := I.coreOf hc rfl
    have h1 : s'.sh.read = s.sh.read := by
      rcases hR with h | ⟨_, h, _⟩ | ⟨_, h, _⟩ | ⟨h, _⟩ <;> first | exact h | (rw [hc] at h; cases h)
    have hn' := hn
    simp only [next, hc, Option.some.injEq] at hn'
    have hamd : s.sh.read.amended = true → s.sh.dirty ≠ none := hC.amd
    simp only [hc, mwrite] at hD
    have adding : ∀ k0, (prog i).key? = some k0 → (aget s.sh.read.m k0 = none ∧ aget (s.sh.dirty.getD []) k0 = none ∧ s.sh.read.amended = true) →
        s'.sh.dirty = s.sh.dirty.map (aput · k0 s.sh.fresh) → (∃ r, critStep s.sh i (prog i) = putNew s.sh i k0 r ∧ r = newRes (prog i)) →
        cur s'.sh k = cur s.sh k ∨ (cur s.sh k = none ∧ cur s'.sh k = some s.sh.fresh ∧ s'.sh.fresh = s.sh.fresh + 1 ∧ (prog i).key? = some k ∧
          s'.sh.ent s.sh.fresh = .val i ∧ (.ent s.sh.fresh) ∈ rels prog s i ∧ s'.pc i = .unl (.res (newRes (prog i)))) := by
      intro k0 hk0 ⟨ha, hb, hm⟩ hd' ⟨r, hcr, hr⟩
      cases hdd : s.sh.dirty with
      | none => exact absurd hdd (hamd hm)
      | some d =>
      simp only [hdd, Option.map_some, Option.getD_some] at hd' hb
      by_cases hk : k0 = k
      · subst hk
        right
        refine ⟨by simp [cur, ha, hm, hdd, hb], by simp [cur, h1, ha, hm, hd', aget_aput], ?_, hk0, ?_, ?_, ?_⟩
        · rw [← hn', hcr]; exact (fresh_cases _ _ _ _ ⟨d, hdd⟩).1
        · rw [← hn', hcr]; exact (fresh_cases _ _ _ _ ⟨d, hdd⟩).2
        · simp only [rels, hc, hcr, (fresh_cases s.sh i k0 r ⟨d, hdd⟩).1]; simp
        · rw [← hn', hcr, goto_pc_self, ← hr]; simp [putNew, hdd]
      · left; unfold cur; rw [h1, hd', hdd]; simp [aget_aput, hk]
    cases hop : prog i with
    | swap k0 v =>
      simp only [hop] at hD
      split at hD
      · next f hf =>
        split at hf
        · next hcond =>
          cases hf
          rw [hop] at adding
          rcases adding k0 rfl hcond hD ⟨.opt none, by simp [critStep, hcond], rfl⟩ with h | h
          · exact Or.inl h
          · exact Or.inr (Or.inr (Or.inl h))
        · cases hf
      · exact Or.inl (same h1 hD)
    | loadOrStore k0 v =>
      simp only [hop] at hD
      split at hD
      · next f hf =>
        split at hf
        · next hcond =>
          cases hf
          rw [hop] at adding
          rcases adding k0 rfl hcond hD ⟨.los v false, by simp [critStep, hcond], rfl⟩ with h | h
          · exact Or.inl h
          · exact Or.inr (Or.inr (Or.inl h))
        · cases hf
      · exact Or.inl (same h1 hD)
    | loadAndDelete k0 =>
      simp only [hop] at hD
      split at hD
      · next f hf =>
        split at hf
        · next hcond =>
          cases hf
          obtain ⟨ha, hm⟩ := hcond
          cases hdd : s.sh.dirty with
          | none => exact absurd hdd (hamd hm)
          | some d =>
          simp only [hdd, Option.map_some] at hD
          by_cases hk : k0 = k
          · subst hk
            have : cur s'.sh k0 = none := by simp [cur, h1, ha, hm, hD, aget_adel]
            by_cases hcu : cur s.sh k0 = none
            · left; rw [this, hcu]
            · right; right; right; left; exact ⟨rfl, rfl, hm, h1, hcu, this⟩
          · left; unfold cur; rw [h1, hD, hdd]; simp [aget_adel, hk]
        · cases hf
      · exact Or.inl (same h1 hD)
    | clear =>
      simp only [hop] at hD
      split at hD
      · next f hf =>
        split at hf
        · cases hf
        · next hcond =>
          cases hf
          left
          simp only [not_or, Bool.not_eq_true] at hcond
          unfold cur; rw [h1, hcond.2]; simp
      · exact Or.inl (same h1 hD)
    | _ => simp only [hop] at hD; exact Or.inl (same h1 hD)
  | unexp e =>
    have h1 : s'.sh.read = s.sh.read := by
      rcases hR with h | ⟨_, h, _⟩ | ⟨_, h, _⟩ | ⟨h, _⟩ <;> first | exact h | (rw [hc] at h; cases h)
    simp only [OpOk, hc] at hO
    obtain ⟨_, k0, hk0, hr⟩ := hO
    simp only [hc, mwrite, hk0, Option.map_some] at hD
    left
    split at hD
    · next f hf =>
      split at hf
      · cases hf
        cases hdd : s.sh.dirty with
        | none => rw [hdd] at hD; exact same h1 (by rw [hD, hdd]; rfl)
        | some d => exact cur_put_same h1 hdd (by rw [hD, hdd]; rfl) hr k
      · cases hf
    · exact same h1 hD
  | copy0 rm =>
    have h1 : s'.sh.read = s.sh.read := by
      rcases hR with h | ⟨_, h, _⟩ | ⟨_, h, _⟩ | ⟨h, _⟩ <;> first | exact h | (rw [hc] at h; cases h)
    simp only [hc] at hD
    left
    unfold cur; rw [h1, hD]
    cases hdd : s.sh.dirty <;> rfl
  | copy es rm =>
    have h1 : s'.sh.read = s.sh.read := by
      rcases hR with h | ⟨_, h, _⟩ | ⟨_, h, _⟩ | ⟨h, _⟩ <;> first | exact h | (rw [hc] at h; cases h)
    simp only [OpOk, hc] at hO
    obtain ⟨_, _, _, hsub⟩ := hO
    left
    cases es with
    | nil => simp only [hc, mwrite] at hD; exact same h1 hD
    | cons x es =>
      obtain ⟨k0, e⟩ := x
      simp only [hc, mwrite] at hD
      split at hD
      · next f hf =>
        split at hf
        · cases hf
          cases hdd : s.sh.dirty with
          | none => rw [hdd] at hD; exact same h1 (by rw [hD, hdd]; rfl)
          | some d => exact cur_put_same h1 hdd (by rw [hD, hdd]; rfl) (hsub k0 e (by simp)) k
        · cases hf
      · exact same h1 hD
  | amend rm =>
    have hC := I.coreOf hc rfl
    simp only [OpOk, hc] at hO
    obtain ⟨⟨k0, hadd, hk0, rfl, hm, ha⟩, hdn⟩ := hO
    simp only [hc, mwrite, hk0, Option.map_some] at hD
    have hn' := hn
    simp only [next, hc, hk0, Option.some.injEq] at hn'
    cases hdd : s.sh.dirty with
    | none => exact absurd hdd hdn
    | some d =>
    simp only [hdd, Option.map_some] at hD
    have h1 : s'.sh.read = ⟨s.sh.read.m, true⟩ := by rw [← hn', goto_sh, putNew_read]
    have hdk : ∀ k', aget s.sh.read.m k' = none → aget d k' = none := by
      intro k' hk'
      cases hx : aget d k' with
      | none => rfl
      | some e => rw [hC.sub hm d hdd k' e hx] at hk'; cases hk'
    by_cases hk : k0 = k
    · subst hk
      right; right; left
      refine ⟨by simp [cur, ha, hm], by simp [cur, h1, ha, hD, aget_aput], ?_, hk0, ?_, by simp [rels, hc], ?_⟩
      · rw [← hn', goto_sh]
        exact (fresh_cases ({ s.sh with read := ⟨s.sh.read.m, true⟩ } : Sh K) i k0 (newRes (prog i)) ⟨d, hdd⟩).1
      · rw [← hn', goto_sh]
        exact (fresh_cases ({ s.sh with read := ⟨s.sh.read.m, true⟩ } : Sh K) i k0 (newRes (prog i)) ⟨d, hdd⟩).2
      · rw [← hn', goto_pc_self]; simp [putNew, hdd]
    · left
      unfold cur
      rw [h1, hD, hm]
      simp only [Option.getD_some, aget_aput, hk, if_true, if_false]
      cases hx : aget s.sh.read.m k with
      | some e => rfl
      | none => simp [hdk k hx]
  | promo nx =>
    have hC := I.coreOf hc rfl
    simp only [OpOk, hc] at hO
    simp only [next, hc, Option.some.injEq] at hn
    cases hdd : s.sh.dirty with
    | none => exact absurd hdd (hC.amd hO.1)
    | some d =>
    have hcur' : cur s'.sh k = aget d k := by
      rw [← hn]; simp only [goto_sh, cur, hdd, Option.getD_some]; cases aget d k <;> simp
    cases hx : aget s.sh.read.m k with
    | none => left; rw [hcur']; simp [cur, hx, hO.1, hdd]
    | some e =>
      have := hC.con d hdd k e hx (by simp [PC.remaining])
      by_cases he : s.sh.ent e = .exp
      · rw [if_pos he] at this
        right; left
        exact ⟨nx, e, rfl, by simp [cur, hx], he, by rw [hcur', this]⟩
      · rw [if_neg he] at this
        left; rw [hcur', this]; simp [cur, hx]
  | wipe =>
    simp only [next, hc, Option.some.injEq] at hn
    right; right; right; right
    refine ⟨rfl, ?_, ?_⟩ <;> rw [← hn] <;> simp [cur, aget]
  | _ =>
    have h1 : s'.sh.read = s.sh.read := by
      rcases hR with h | ⟨_, h, _⟩ | ⟨_, h, _⟩ | ⟨h, _⟩ <;> first | exact h | (rw [hc] at h; cases h)
    simp only [hc, mwrite] at hD
    exact Or.inl (same h1 hD)

/-- The call has its result. -/
def PC.post : PC K V → Bool
  | .unl (.res _) | .promo (.res _) | .add _ _ | .fin _ | .done _ => true
  | _ => false

omit [DecidableEq K] [Inhabited V] in
theorem finish_post (op : Op K V) (r : Res K V) : (finish op r).post = true := by unfold finish; split <;> rfl

omit [DecidableEq K] [Inhabited V] in
theorem miss_post (h : Sh K) (r : Res K V) : (missLocked h (.res r)).2.post = true := by simp only [missLocked]; split <;> rfl

omit [DecidableEq K] [Inhabited V] in
theorem after_post (h : Sh K) (op : Op K V) (lk : Lk) (r : Res K V) : (after h op lk r).2.post = true := by
  cases lk
  · exact finish_post _ _
  · rfl
  · exact miss_post _ _

omit [DecidableEq K] in
theorem adds_stored {op : Op K V} (h : op.adds = true) : ∃ k, op.Stored k op.arg := by
  cases op <;> first | (cases h; done) | exact ⟨_, Or.inl rfl⟩ | exact ⟨_, Or.inr (Or.inl rfl)⟩

/-- How an entry changes. -/
theorem next_ent_rel (I : Inv eqv prog s g) (hn : next eqv prog ord go s i = some s') (e : Nat) :
    s'.sh.ent e = s.sh.ent e ∨
    (.ent e ∈ rels prog s i ∧
      ((s'.sh.ent e = .val i ∧ (s'.pc i).post = true ∧
        ((e = s.sh.fresh ∧ s'.sh.fresh = s.sh.fresh + 1 ∧ (prog i).adds = true) ∨ (∃ lk p, s.pc i = .cas e lk p) ∨ s.pc i = .swp e) ∧
        ∃ k, (prog i).Stored k (prog i).arg) ∨
       (s'.sh.ent e = .nil ∧ ((∃ lk p, s.pc i = .cas e lk p) ∨ s.pc i = .unexp e)) ∨
       (s'.sh.ent e = .exp ∧ ∃ k es rm, s.pc i = .expunge ((k, e) :: es) rm))) := by
  have hO := I.ops i
  simp only [next] at hn
  cases hc : s.pc i with
  | crit =>
    simp only [hc, Option.some.injEq] at hn; subst hn
    simp only [goto_sh, goto_pc_self, rels, hc]
    have key : ∀ k r, (prog i).adds = true → critStep s.sh i (prog i) = putNew s.sh i k r → s.sh.dirty ≠ none →
        (critStep s.sh i (prog i)).1.ent e = s.sh.ent e ∨
        (Loc.ent e ∈ (if (critStep s.sh i (prog i)).1.fresh = s.sh.fresh then [] else [Loc.ent s.sh.fresh]) ∧
          (critStep s.sh i (prog i)).1.ent e = .val i ∧ (critStep s.sh i (prog i)).2.post = true ∧ e = s.sh.fresh ∧
            (critStep s.sh i (prog i)).1.fresh = s.sh.fresh + 1 ∧ (prog i).adds = true) := by
      intro k r ha h hd
      obtain ⟨d, hd⟩ := Option.ne_none_iff_exists'.1 hd
      rw [h]
      by_cases he : e = s.sh.fresh
      · right; subst he; simp [putNew, hd, PC.post, ha]
      · left; simp [putNew, hd, he]
    have hamd : s.sh.read.amended = true → s.sh.dirty ≠ none := I.str.core.amd
    have fin : ((critStep s.sh i (prog i)).1.ent e = s.sh.ent e ∨
        (Loc.ent e ∈ (if (critStep s.sh i (prog i)).1.fresh = s.sh.fresh then [] else [Loc.ent s.sh.fresh]) ∧
          (critStep s.sh i (prog i)).1.ent e = .val i ∧ (critStep s.sh i (prog i)).2.post = true ∧ e = s.sh.fresh ∧
            (critStep s.sh i (prog i)).1.fresh = s.sh.fresh + 1 ∧ (prog i).adds = true)) := by
      cases hop : prog i with
      | swap k v =>
        rw [hop] at key
        by_cases hcond : aget s.sh.read.m k = none ∧ aget (s.sh.dirty.getD []) k = none ∧ s.sh.read.amended = true
        · exact key k (.opt none) rfl (by simp [critStep, hcond]) (hamd hcond.2.2)
        · left
          simp only [critStep]
          repeat' split
          all_goals first | rfl | simp_all
      | loadOrStore k v =>
        rw [hop] at key
        by_cases hcond : aget s.sh.read.m k = none ∧ aget (s.sh.dirty.getD []) k = none ∧ s.sh.read.amended = true
        · exact key k (.los v false) rfl (by simp [critStep, hcond]) (hamd hcond.2.2)
        · left
          simp only [critStep]
          repeat' split
          all_goals first | rfl | simp_all
      | _ =>
        left
        simp only [critStep]
        repeat' split
        all_goals first | rfl | simp only [miss_ent]
    rcases fin with h | ⟨h1, h2, h3, h4⟩
    · exact Or.inl h
    · exact Or.inr ⟨h1, Or.inl ⟨h2, h3, Or.inl h4, adds_stored h4.2.2⟩⟩
  | ent e' lk =>
    simp only [hc, Option.some.injEq] at hn; subst hn
    exact Or.inl (by simp only [goto_sh, ent_ent])
  | cas e' lk p =>
    simp only [hc, Option.some.injEq] at hn; subst hn
    simp only [goto_sh, goto_pc_self, casStep, rels, hc]
    by_cases hp : s.sh.ent e' = p
    swap
    · rw [if_neg hp]; exact Or.inl rfl
    simp only [if_pos hp]
    by_cases he : e = e'
    swap
    · left; split <;> simp [after_ent, Sh.setEnt, he]
    subst he
    split
    · next k' v hop => right; exact ⟨by simp, Or.inl ⟨by simp [after_ent, Sh.setEnt], after_post _ _ _ _, Or.inr (Or.inl ⟨lk, p, rfl⟩), _, Or.inl (by rw [hop]; rfl)⟩⟩
    · next k' v hop => right; exact ⟨by simp, Or.inl ⟨by simp [after_ent, Sh.setEnt], after_post _ _ _ _, Or.inr (Or.inl ⟨lk, p, rfl⟩), _, Or.inr (Or.inl (by rw [hop]; rfl))⟩⟩
    · next k' o v hop => right; exact ⟨by simp, Or.inl ⟨by simp [after_ent, Sh.setEnt], after_post _ _ _ _, Or.inr (Or.inl ⟨lk, p, rfl⟩), _, Or.inr (Or.inr ⟨o, by rw [hop]; rfl⟩)⟩⟩
    · right; exact ⟨by simp, Or.inr (Or.inl ⟨by simp [after_ent, Sh.setEnt], Or.inl ⟨lk, p, rfl⟩⟩)⟩
    · right; exact ⟨by simp, Or.inr (Or.inl ⟨by simp [after_ent, Sh.setEnt], Or.inl ⟨lk, p, rfl⟩⟩)⟩
    · exact Or.inl rfl
  | unexp e' =>
    simp only [hc, Option.some.injEq] at hn; subst hn
    simp only [goto_sh, unexpStep, rels, hc]
    by_cases hp : s.sh.ent e' = .exp
    swap
    · rw [if_neg hp]; exact Or.inl rfl
    simp only [if_pos hp]
    by_cases he : e = e'
    swap
    · left; repeat' split
      all_goals simp [Sh.setEnt, he]
    subst he
    repeat' split
    all_goals first
      | exact Or.inl rfl
      | exact Or.inr ⟨by simp, Or.inr (Or.inl ⟨by simp [Sh.setEnt], Or.inr rfl⟩)⟩
  | swp e' =>
    simp only [hc, Option.some.injEq] at hn; subst hn
    simp only [OpOk, hc] at hO
    obtain ⟨_, k, v, hop, _⟩ := hO
    simp only [goto_sh, goto_pc_self, swpStep, rels, hc]
    by_cases he : e = e'
    · subst he; right; exact ⟨by simp, Or.inl ⟨by simp [Sh.setEnt], rfl, Or.inr (Or.inr rfl), k, Or.inl (by rw [hop]; rfl)⟩⟩
    · left; simp [Sh.setEnt, he]
  | amend rm =>
    simp only [OpOk, hc] at hO
    obtain ⟨⟨k, ha, hk, hrm, _⟩, hd⟩ := hO
    simp only [hc, hk, Option.some.injEq] at hn
    subst hn
    obtain ⟨d, hd⟩ := Option.ne_none_iff_exists'.1 hd
    by_cases he : e = s.sh.fresh
    · right; subst he; exact ⟨by simp [rels, hc], Or.inl ⟨by simp [putNew, hd], by simp [putNew, hd, PC.post], Or.inl ⟨rfl, by simp [putNew, hd], ha⟩, adds_stored ha⟩⟩
    · left; simp [putNew, hd, he]
  | expunge es rm =>
    cases es with
    | nil => simp only [hc] at hn; cases hn
    | cons x es =>
      obtain ⟨k, e'⟩ := x
      simp only [hc] at hn
      by_cases hp : s.sh.ent e' = .nil
      swap
      · simp only [if_neg hp, Option.some.injEq] at hn; subst hn; exact Or.inl rfl
      simp only [if_pos hp, Option.some.injEq] at hn
      subst hn
      by_cases he : e = e'
      · subst he; right; exact ⟨by simp [rels, hc, hp], Or.inr (Or.inr ⟨by simp [Sh.setEnt], k, es, rm, rfl⟩)⟩
      · left; simp [Sh.setEnt, he]
  | _ =>
    left
    simp only [hc] at hn
    repeat' split at hn
    all_goals first
      | cases hn; done
      | contradiction
      | (simp only [Option.some.injEq] at hn; subst hn; rfl)

/-- Neither the mutex nor the free addresses change. -/
def SameMF (h h' : Sh K) : Prop := h'.mu = h.mu ∧ h.fresh ≤ h'.fresh

omit [DecidableEq K] [Inhabited V] in
theorem miss_mf (h : Sh K) (nx : Nx K V) : SameMF h (missLocked h nx).1 := by
  unfold missLocked; simp only; split <;> exact ⟨rfl, Nat.le_refl _⟩

omit [DecidableEq K] [Inhabited V] in
theorem after_mf (h : Sh K) (op : Op K V) (lk : Lk) (r : Res K V) : SameMF h (after h op lk r).1 := by
  cases lk <;> first | exact ⟨rfl, Nat.le_refl _⟩ | exact miss_mf _ _

omit [Inhabited V] in
theorem putNew_mf (h : Sh K) (i : Nat) (k : K) (r : Res K V) : SameMF h (putNew h i k r).1 := by
  unfold putNew; split <;> exact ⟨rfl, by simp⟩

omit [Inhabited V] in
theorem crit_mf (h : Sh K) (i : Nat) (op : Op K V) : SameMF h (critStep h i op).1 := by
  simp only [critStep]
  repeat' split
  all_goals first
    | exact ⟨rfl, Nat.le_refl _⟩
    | exact putNew_mf _ _ _ _
    | exact miss_mf _ _

theorem next_mf (I : Inv eqv prog s g) (hn : next eqv prog ord go s i = some s') :
    ((s.pc i = .acq ∧ s.sh.mu = none ∧ s'.sh.mu = some i) ∨ (∃ nx, s.pc i = .unl nx ∧ s.sh.mu = some i ∧ s'.sh.mu = none) ∨
    ((∀ nx, s.pc i ≠ .unl nx) ∧ s'.sh.mu = s.sh.mu)) ∧ s.sh.fresh ≤ s'.sh.fresh := by
  have main : SameMF s.sh s'.sh → (∀ nx, s.pc i ≠ .unl nx) → ((s.pc i = .acq ∧ s.sh.mu = none ∧ s'.sh.mu = some i) ∨
    (∃ nx, s.pc i = .unl nx ∧ s.sh.mu = some i ∧ s'.sh.mu = none) ∨ ((∀ nx, s.pc i ≠ .unl nx) ∧ s'.sh.mu = s.sh.mu)) ∧ s.sh.fresh ≤ s'.sh.fresh :=
    fun h h' => ⟨Or.inr (Or.inr ⟨h', h.1⟩), h.2⟩
  simp only [next] at hn
  cases hc : s.pc i with
  | acq =>
    simp only [hc] at hn
    split at hn
    · next hm => simp only [Option.some.injEq] at hn; subst hn; exact ⟨Or.inl ⟨rfl, hm, rfl⟩, Nat.le_refl _⟩
    · cases hn
  | unl nx =>
    have hm := I.str.holder hc rfl
    simp only [hc] at hn
    cases nx <;> simp only [Option.some.injEq] at hn <;> subst hn <;> exact ⟨Or.inr (Or.inl ⟨_, rfl, hm, rfl⟩), Nat.le_refl _⟩
  | crit =>
    rw [hc] at main
    simp only [hc, Option.some.injEq] at hn; subst hn
    exact main (crit_mf _ _ _) nofun
  | ent e lk =>
    rw [hc] at main
    simp only [hc, Option.some.injEq] at hn; subst hn
    refine main ?_ nofun
    simp only [goto_sh, entStep]
    repeat' split
    all_goals first | exact ⟨rfl, Nat.le_refl _⟩ | exact after_mf _ _ _ _
  | cas e lk p =>
    rw [hc] at main
    simp only [hc, Option.some.injEq] at hn; subst hn
    refine main ?_ nofun
    simp only [goto_sh, casStep]
    repeat' split
    all_goals first | exact ⟨rfl, Nat.le_refl _⟩ | exact after_mf (s.sh.setEnt _ _) _ _ _
  | unexp e =>
    rw [hc] at main
    simp only [hc, Option.some.injEq] at hn; subst hn
    refine main ?_ nofun
    simp only [goto_sh, unexpStep]
    repeat' split
    all_goals exact ⟨rfl, Nat.le_refl _⟩
  | swp e =>
    rw [hc] at main
    simp only [hc, Option.some.injEq] at hn; subst hn
    refine main ?_ nofun
    simp only [goto_sh, swpStep]
    repeat' split
    all_goals exact ⟨rfl, Nat.le_refl _⟩
  | amend rm =>
    rw [hc] at main
    simp only [hc] at hn
    split at hn
    · simp only [Option.some.injEq] at hn; subst hn; exact main ⟨rfl, Nat.le_refl _⟩ nofun
    · simp only [Option.some.injEq] at hn; subst hn; exact main (putNew_mf { s.sh with read := ⟨rm, true⟩ } i _ _) nofun
  | _ =>
    rw [hc] at main
    simp only [hc] at hn
    repeat' split at hn
    all_goals first
      | cases hn; done
      | contradiction
      | (simp only [Option.some.injEq] at hn; subst hn; exact main ⟨rfl, Nat.le_refl _⟩ nofun)

/-- A call that has its result only has to return it. -/
theorem next_post (hn : next eqv prog ord go s i = some s') (hp : (s.pc i).post = true) : (s'.pc i).post = true := by
  simp only [next] at hn
  cases hc : s.pc i with
  | unl nx =>
    rw [hc] at hp
    cases nx with
    | res r => simp only [hc, Option.some.injEq] at hn; subst hn; rw [goto_pc_self]; exact finish_post _ _
    | _ => cases hp
  | promo nx =>
    rw [hc] at hp
    simp only [hc, Option.some.injEq] at hn; subst hn; rw [goto_pc_self]
    cases nx <;> first | rfl | cases hp
  | add d r => simp only [hc, Option.some.injEq] at hn; subst hn; rw [goto_pc_self]; rfl
  | fin r => simp only [hc, Option.some.injEq] at hn; subst hn; rw [goto_pc_self]; rfl
  | done r => simp only [hc] at hn; cases hn
  | _ => rw [hc] at hp; cases hp

theorem post_fresh (hn : next eqv prog ord go s i = some s') (hp : (s.pc i).post = true) : s'.sh.fresh = s.sh.fresh := by
  simp only [next] at hn
  cases hc : s.pc i with
  | unl nx => cases nx <;> simp only [hc, Option.some.injEq] at hn <;> subst hn <;> rfl
  | promo nx => simp only [hc, Option.some.injEq] at hn; subst hn; rfl
  | add d r => simp only [hc, Option.some.injEq] at hn; subst hn; rfl
  | fin r => simp only [hc, Option.some.injEq] at hn; subst hn; rfl
  | done r => simp only [hc] at hn; cases hn
  | _ => rw [hc] at hp; cases hp

/-! ## The invariant -/

/-- What the holder of the mutex knows, or the next one will. -/
def LK (s : State K V) (c : Clk K) (t : Nat) : Prop :=
  match s.sh.mu with
  | none => c.loc .mu t
  | some i => c.call i t

/-- Whoever finds out what is in the map for `k` will know about step `t`. -/
def Ok1 (s : State K V) (c : Clk K) (k : K) (t : Nat) : Prop :=
  match cur s.sh k with
  | some e => c.loc (.ent e) t ∧ (s.sh.ent e = .exp → LK s c t)
  | none => LK s c t ∧ (s.sh.read.amended = false → c.loc .rd t)

/-- For every write of `k` before the invocation of call `j`, there is a write of `k`, the same or a later one, that call `j` knows about. -/
def Clk.Seen (c : Clk K) (j : Nat) (k : K) : Prop :=
  ∀ t0, c.wr k t0 → t0 < c.inv j → ∃ t, t0 ≤ t ∧ c.wr k t ∧ c.call j t

/-- The same, once it has accessed `e`. -/
def Clk.Near (c : Clk K) (j : Nat) (k : K) (e : Nat) : Prop :=
  ∀ t0, c.wr k t0 → t0 < c.inv j → ∃ t, t0 ≤ t ∧ c.wr k t ∧ c.loc (.ent e) t

/-- Call `j` knows that call `b`, another one, has put its value into the map for `k`. -/
def Clk.Saw (prog : Nat → Op K V) (c : Clk K) (j : Nat) (k : K) (b : Nat) : Prop :=
  b ≠ j ∧ (prog b).key? = some k ∧ ∃ t, c.put b t ∧ c.call j t

/-- What call `j` knows when it returns `r`. -/
def ResOk (eqv : V → V → Option Bool) (prog : Nat → Op K V) (c : Clk K) (j : Nat) (r : Res K V) : Prop :=
  match prog j with
  | .load k | .loadAndDelete k | .swap k _ => c.Seen j k ∧ ∀ v, r = .opt (some v) → ∃ b, c.Saw prog j k b ∧ (prog b).arg = v
  | .loadOrStore k _ => c.Seen j k ∧ ∀ v, r = .los v true → ∃ b, c.Saw prog j k b ∧ (prog b).arg = v
  | .compareAndSwap k old _ | .compareAndDelete k old => c.Seen j k ∧
      (r = .bool true → ∃ b, c.Saw prog j k b ∧ eqv (prog b).arg old = some true) ∧
      (r = .panicked → ∃ b, c.Saw prog j k b ∧ eqv (prog b).arg old = none)
  | .range => ∀ acc stop, r = .visited acc stop → stop = false → ∀ k, c.Seen j k
  | _ => True

def Tgt (prog : Nat → Op K V) (c : Clk K) (ek : Nat → Option K) (j e : Nat) : Prop :=
  ∀ k, (prog j).key? = some k → ek e = some k ∧ c.Near j k e

def RngH (c : Clk K) (ek : Nat → Option K) (j : Nat) (es : List (K × Nat)) : Prop :=
  (∀ k e, (k, e) ∈ es → ek e = some k) ∧
  ∀ k t0, c.wr k t0 → t0 < c.inv j → ∃ t, t0 ≤ t ∧ c.wr k t ∧ (c.call j t ∨ ∃ e, (k, e) ∈ es ∧ c.loc (.ent e) t)

def NxH (eqv : V → V → Option Bool) (prog : Nat → Op K V) (c : Clk K) (ek : Nat → Option K) (j : Nat) (nx : Nx K V) : Prop :=
  match nx with
  | .ent e => Tgt prog c ek j e
  | .rng m => RngH c ek j m
  | .res r => ResOk eqv prog c j r

/-- What call `j` knows. -/
def PcOk (eqv : V → V → Option Bool) (prog : Nat → Op K V) (c : Clk K) (ek : Nat → Option K) (j : Nat) (p : PC K V) : Prop :=
  match p with
  | .ent e _ => Tgt prog c ek j e
  | .cas e _ p => Tgt prog c ek j e ∧ ∀ b, p = .val b → ∀ k, (prog j).key? = some k → c.Saw prog j k b
  | .unl nx | .promo nx => NxH eqv prog c ek j nx
  | .rng es _ => RngH c ek j es
  | .add _ r | .fin r | .done r => ResOk eqv prog c j r
  | _ => True

/-- What is known about an event. -/
def EvOk (eqv : V → V → Option Bool) (prog : Nat → Op K V) (s : State K V) (c : Clk K) : Ev K V → Prop
  | .inv _ => True
  | .visit i k v => ∃ b, c.Saw prog i k b ∧ (prog b).arg = v
  | .ret i r => (s.pc i).isIdle = false ∧ ResOk eqv prog c i r

/-- The invariant; `ek` is the key an entry was made for. -/
structure Wk (eqv : V → V → Option Bool) (prog : Nat → Op K V) (h : List (Ev K V)) (s : State K V) (c : Clk K) (ek : Nat → Option K) : Prop where
  rd : ∀ t, c.loc .rd t → LK s c t
  val : ∀ e b, s.sh.ent e = .val b → e < s.sh.fresh ∧ ∃ k t, ek e = some k ∧ (prog b).key? = some k ∧ c.put b t ∧ c.loc (.ent e) t
  key : ∀ k e, cur s.sh k = some e → ek e = some k
  wr : ∀ k t0, c.wr k t0 → ∃ t, t0 ≤ t ∧ c.wr k t ∧ Ok1 s c k t
  lt : ∀ k t, c.wr k t → t < c.n
  inv : ∀ j, (s.pc j).isIdle = false → c.inv j < c.n
  put : ∀ b t, c.put b t → (s.pc b).post = true ∧ (∃ k, (prog b).Stored k (prog b).arg) ∧ t < c.n
  once : ∀ b t t', c.put b t → c.put b t' → t = t'
  call : ∀ j, PcOk eqv prog c ek j (s.pc j)
  hist : ∀ ev ∈ h, EvOk eqv prog s c ev

theorem Wk.init : Wk eqv prog [] (State.init : State K V) Clk.init (fun _ => none) where
  rd := nofun
  val := nofun
  key := nofun
  wr := nofun
  lt := nofun
  inv := by intro j hj; simp [State.init, PC.isIdle] at hj
  put := nofun
  once := nofun
  call := fun _ => trivial
  hist := nofun

section
variable {c : Clk K} {ek : Nat → Option K}

/-! ### Nothing known is forgotten -/

theorem call_self {t : Nat} : (c.next prog s s' i).call i t ↔ c.me prog s i t := by simp [Clk.next]

theorem call_mono {t : Nat} (h : c.call j t) : (c.next prog s s' i).call j t := by
  simp only [Clk.next]
  split
  · next hj => subst hj; exact Or.inl h
  · exact h

theorem call_now : (c.next prog s s' i).call i c.n := call_self.2 (Or.inr (Or.inl rfl))

theorem call_acq {l : Loc} {t : Nat} (hl : l ∈ acqs prog s i) (h : c.loc l t) : (c.next prog s s' i).call i t :=
  call_self.2 (Or.inr (Or.inr ⟨l, hl, h⟩))

theorem loc_rel {l : Loc} {t : Nat} (hl : l ∈ rels prog s i) : (c.next prog s s' i).loc l t ↔ c.me prog s i t := by simp [Clk.next, hl]

theorem loc_same {l : Loc} {t : Nat} (hl : l ∉ rels prog s i) : (c.next prog s s' i).loc l t ↔ c.loc l t := by simp [Clk.next, hl]

theorem wr_mono {t : Nat} (h : c.wr k t) : (c.next prog s s' i).wr k t := Or.inl h

theorem put_mono {b t : Nat} (h : c.put b t) : (c.next prog s s' i).put b t := Or.inl h

theorem inv_same (hj : (s.pc j).isIdle = false) : (c.next prog s s' i).inv j = c.inv j := by
  simp only [Clk.next]
  split
  · next h => obtain ⟨rfl, h⟩ := h; rw [hj] at h; cases h
  · rfl

/-- A location that is stored to by an atomic read-modify-write, or only with the mutex held. -/
theorem ent_mono {e t : Nat} (he : e < s.sh.fresh) (h : c.loc (.ent e) t) : (c.next prog s s' i).loc (.ent e) t := by
  by_cases hr : Loc.ent e ∈ rels prog s i
  · rw [loc_rel hr]
    refine Or.inr (Or.inr ⟨_, ?_, h⟩)
    simp only [rels] at hr
    simp only [acqs]
    repeat' split at hr
    all_goals first
      | (simp at hr; done)
      | (simp only [List.mem_cons, Loc.ent.injEq, reduceCtorEq, false_or, List.not_mem_nil, or_false] at hr; subst hr; omega)
      | simp_all
  · exact (loc_same hr).2 h

/-- The mutex is held by the call that makes a step with it held. -/
theorem lk_self (I : Inv eqv prog s g) (hl : (s.pc i).locked = true) {t : Nat} : LK s c t ↔ c.call i t := by
  rw [LK, (I.str.mu i).1 hl]

theorem lk_mono (I : Inv eqv prog s g) (hn : next eqv prog ord go s i = some s') {t : Nat} (h : LK s c t) : LK s' (c.next prog s s' i) t := by
  rcases (next_mf I hn).1 with ⟨hc, hm, hm'⟩ | ⟨nx, hc, hm, hm'⟩ | ⟨hc, hm⟩
  · simp only [LK, hm, hm'] at h ⊢
    exact call_acq (by simp [acqs, hc]) h
  · simp only [LK, hm, hm'] at h ⊢
    rw [loc_rel (by simp [rels, hc])]
    exact Or.inl h
  · unfold LK at h ⊢
    rw [hm]
    split
    · next hmu =>
      rw [hmu] at h
      have hnr : Loc.mu ∉ rels prog s i := by
        simp only [rels]
        repeat' split
        all_goals first
          | (next nx hu => exact absurd hu (hc nx))
          | simp
      exact (loc_same hnr).2 h
    · next i' hmu => rw [hmu] at h; exact call_mono h

/-- A step with the mutex held that leaves it held. -/
theorem lk_held (I : Inv eqv prog s g) (hn : next eqv prog ord go s i = some s') (hl : (s.pc i).locked = true) (hu : ∀ nx, s.pc i ≠ .unl nx) {t : Nat}
    (h : (c.next prog s s' i).call i t) : LK s' (c.next prog s s' i) t := by
  have hm := (I.str.mu i).1 hl
  rcases (next_mf I hn).1 with ⟨hc, hm2, hm'⟩ | ⟨nx, hc, _, hm'⟩ | ⟨hc, hm'⟩
  · rw [hm] at hm2; cases hm2
  · exact absurd hc (hu nx)
  · simp only [LK, hm', hm]; exact h

theorem rd_locked (hr : Loc.rd ∈ rels prog s i) : (s.pc i).locked = true ∧ ∀ nx, s.pc i ≠ .unl nx := by
  simp only [rels] at hr
  repeat' split at hr
  all_goals first
    | (simp at hr; done)
    | (rename_i hp; rw [hp]; exact ⟨rfl, nofun⟩)

theorem rd_mono (I : Inv eqv prog s g) (W : Wk eqv prog h s c ek) {t : Nat} (ht : c.loc .rd t) : (c.next prog s s' i).loc .rd t := by
  by_cases hr : Loc.rd ∈ rels prog s i
  · rw [loc_rel hr]
    exact Or.inl ((lk_self I (rd_locked hr).1).1 (W.rd t ht))
  · exact (loc_same hr).2 ht

/-- A write that others will know about is not forgotten, unless there is a new one. -/
theorem ok1_next (I : Inv eqv prog s g) (hn : next eqv prog ord go s i = some s') (W : Wk eqv prog h s c ek) (hw : ¬ Wrote prog s s' i k) {t : Nat}
    (H : Ok1 s c k t) : Ok1 s' (c.next prog s s' i) k t := by
  unfold Wrote at hw
  simp only [not_or, Classical.not_not] at hw
  obtain ⟨hw1, hw2, hw3⟩ := hw
  have rdl : ∀ l, Loc.rd ∈ rels prog s i → LK s c l → (c.next prog s s' i).loc .rd l := by
    intro l hr hl
    rw [loc_rel hr]
    exact Or.inl ((lk_self I (rd_locked hr).1).1 hl)
  rcases next_cur I hn k with h1 | ⟨nx, e, hc, h1, h2, h3⟩ | ⟨h1, h2, _, _, h3, _⟩ | ⟨_, h1, _, _, h2, h3⟩ | ⟨h1, _⟩
  · unfold Ok1 at H ⊢
    rw [h1]
    cases hcu : cur s.sh k with
    | some e =>
      simp only [hcu] at H ⊢
      refine ⟨ent_mono (I.str.core.cur_key hcu).2.1 H.1, fun hx => ?_⟩
      rcases next_ent_rel I hn e with he | ⟨_, ⟨he, _⟩ | ⟨he, _⟩ | ⟨_, k', es, rm, hc⟩⟩
      · exact lk_mono I hn (H.2 (he ▸ hx))
      · rw [hx] at he; cases he
      · rw [hx] at he; cases he
      · exact lk_held I hn (by rw [hc]; rfl) (by rw [hc]; nofun) (call_acq (by simp [acqs, hc]) H.1)
    | none =>
      simp only [hcu] at H ⊢
      refine ⟨lk_mono I hn H.1, fun ha => ?_⟩
      cases hb : s.sh.read.amended with
      | false => exact rd_mono I W (H.2 hb)
      | true =>
        rcases next_read I hn with hr | ⟨rm, hc, hr⟩ | ⟨nx, hc, hr⟩ | ⟨hc, hr⟩
        · rw [hr, hb] at ha; cases ha
        · rw [hr] at ha; cases ha
        · exact rdl t (by simp [rels, hc]) H.1
        · exact rdl t (by simp [rels, hc]) H.1
  · simp only [Ok1, h1, h3] at H ⊢
    exact ⟨lk_mono I hn (H.2 h2), fun _ => rdl t (by simp [rels, hc]) (H.2 h2)⟩
  · exact absurd hw1 (by simp [content, h1, h2, h3])
  · exact absurd ⟨h1, h2, h3⟩ hw3
  · exact absurd h1 hw2

/-- Others will know about a new write. -/
theorem ok1_now (I : Inv eqv prog s g) (hn : next eqv prog ord go s i = some s') (hw : Wrote prog s s' i k) :
    Ok1 s' (c.next prog s s' i) k c.n := by
  have now : ∀ l, l ∈ rels prog s i → (c.next prog s s' i).loc l c.n := fun l hl => (loc_rel hl).2 (Or.inr (Or.inl rfl))
  rcases next_cur I hn k with h1 | ⟨nx, e, hc, h1, h2, h3⟩ | ⟨h1, h2, _, _, h3, h4, _⟩ | ⟨hc, h1, ha, hr, h2, h3⟩ | ⟨hc, h1, ha⟩
  · by_cases hwp : s.pc i = .wipe
    · have hcn : cur s'.sh k = none := by
        simp only [next, hwp, Option.some.injEq] at hn; rw [← hn]; simp [cur, aget]
      simp only [Ok1, hcn]
      exact ⟨lk_held I hn (by rw [hwp]; rfl) (by rw [hwp]; nofun) call_now, fun _ => now _ (by simp [rels, hwp])⟩
    rcases hw with hw | hw | ⟨_, hw1, hw2⟩
    · cases hcu : cur s.sh k with
      | none => simp [content, h1, hcu] at hw
      | some e =>
        rw [hcu] at h1
        simp only [Ok1, h1]
        rcases next_ent_rel I hn e with he | ⟨hr, hx⟩
        · simp [content, h1, hcu, he] at hw
        · refine ⟨now _ hr, fun hx' => ?_⟩
          rcases hx with ⟨he, _⟩ | ⟨he, _⟩ | ⟨_, k', es, rm, hc⟩
          · rw [hx'] at he; cases he
          · rw [hx'] at he; cases he
          · exact lk_held I hn (by rw [hc]; rfl) (by rw [hc]; nofun) call_now
    · exact absurd hw hwp
    · rw [h1] at hw2; exact absurd hw2 hw1
  · simp only [Ok1, h3]
    exact ⟨lk_held I hn (by rw [hc]; rfl) (by rw [hc]; nofun) call_now, fun _ => now _ (by simp [rels, hc])⟩
  · simp only [Ok1, h2, h3]
    exact ⟨now _ h4, nofun⟩
  · simp only [Ok1, h3, hr, ha]
    exact ⟨lk_held I hn (by rw [hc]; rfl) (by rw [hc]; nofun) call_now, nofun⟩
  · simp only [Ok1, h1]
    exact ⟨lk_held I hn (by rw [hc]; rfl) (by rw [hc]; nofun) call_now, fun _ => now _ (by simp [rels, hc])⟩

/-! ### What calls know -/

theorem wr_old (W : Wk eqv prog h s c ek) (hj : (s.pc j).isIdle = false) {t0 : Nat} (h0 : (c.next prog s s' i).wr k t0)
    (h1 : t0 < (c.next prog s s' i).inv j) : c.wr k t0 ∧ t0 < c.inv j := by
  rw [inv_same hj] at h1
  have := W.inv j hj
  rcases h0 with h0 | ⟨rfl, _⟩
  · exact ⟨h0, h1⟩
  · omega

theorem Seen.next (W : Wk eqv prog h s c ek) (hj : (s.pc j).isIdle = false) (H : c.Seen j k) : (c.next prog s s' i).Seen j k := by
  intro t0 h0 h1
  obtain ⟨h0, h1⟩ := wr_old W hj h0 h1
  obtain ⟨t, ht, hw, hk⟩ := H t0 h0 h1
  exact ⟨t, ht, wr_mono hw, call_mono hk⟩

theorem Near.next (W : Wk eqv prog h s c ek) (hj : (s.pc j).isIdle = false) {e : Nat} (he : e < s.sh.fresh) (H : c.Near j k e) :
    (c.next prog s s' i).Near j k e := by
  intro t0 h0 h1
  obtain ⟨h0, h1⟩ := wr_old W hj h0 h1
  obtain ⟨t, ht, hw, hk⟩ := H t0 h0 h1
  exact ⟨t, ht, wr_mono hw, ent_mono he hk⟩

theorem Near.seen (W : Wk eqv prog h s c ek) (hj : (s.pc i).isIdle = false) {e : Nat} (ha : .ent e ∈ acqs prog s i) (H : c.Near i k e) :
    (c.next prog s s' i).Seen i k := by
  intro t0 h0 h1
  obtain ⟨h0, h1⟩ := wr_old W hj h0 h1
  obtain ⟨t, ht, hw, hk⟩ := H t0 h0 h1
  exact ⟨t, ht, wr_mono hw, call_acq ha hk⟩

theorem Saw.next {b : Nat} (H : c.Saw prog j k b) : (c.next prog s s' i).Saw prog j k b :=
  ⟨H.1, H.2.1, H.2.2.imp fun _ h => ⟨put_mono h.1, call_mono h.2⟩⟩

theorem near_cur (W : Wk eqv prog h s c ek) {e : Nat} (hk : cur s.sh k = some e) : c.Near j k e := by
  intro t0 h0 _
  obtain ⟨t, ht, hw, hok⟩ := W.wr k t0 h0
  simp only [Ok1, hk] at hok
  exact ⟨t, ht, hw, hok.1⟩

theorem seen_lk (I : Inv eqv prog s g) (W : Wk eqv prog h s c ek) (hl : (s.pc i).locked = true) (hk : cur s.sh k = none) : c.Seen i k := by
  intro t0 h0 _
  obtain ⟨t, ht, hw, hok⟩ := W.wr k t0 h0
  simp only [Ok1, hk] at hok
  exact ⟨t, ht, hw, (lk_self I hl).1 hok.1⟩

theorem seen_rd (W : Wk eqv prog h s c ek) (hj : (s.pc i).isIdle = false) (ha : .rd ∈ acqs prog s i) (hk : cur s.sh k = none)
    (hm : s.sh.read.amended = false) : (c.next prog s s' i).Seen i k := by
  intro t0 h0 h1
  obtain ⟨h0, h1⟩ := wr_old W hj h0 h1
  obtain ⟨t, ht, hw, hok⟩ := W.wr k t0 h0
  simp only [Ok1, hk] at hok
  exact ⟨t, ht, wr_mono hw, call_acq ha (hok.2 hm)⟩

theorem seen_new (W : Wk eqv prog h s c ek) (hj : (s.pc i).isIdle = false) (hw : Wrote prog s s' i k) : (c.next prog s s' i).Seen i k := by
  intro t0 h0 h1
  obtain ⟨h0, _⟩ := wr_old W hj h0 h1
  exact ⟨c.n, Nat.le_of_lt (W.lt k t0 h0), Or.inr ⟨rfl, hw⟩, call_now⟩

theorem saw_ent (W : Wk eqv prog h s c ek) {e b : Nat} (ha : .ent e ∈ acqs prog s i) (he : s.sh.ent e = .val b) (hp : (s.pc i).post = false)
    (hk : ek e = some k) : (c.next prog s s' i).Saw prog i k b := by
  obtain ⟨_, k', t, h1, h2, h3, h4⟩ := W.val e b he
  rw [hk] at h1
  cases h1
  refine ⟨?_, h2, t, put_mono h3, call_acq ha h4⟩
  rintro rfl
  rw [(W.put _ _ h3).1] at hp
  cases hp

/-- The key an entry was made for. -/
def ekNext (prog : Nat → Op K V) (s s' : State K V) (i : Nat) (ek : Nat → Option K) (e : Nat) : Option K :=
  if e = s.sh.fresh ∧ s'.sh.fresh ≠ s.sh.fresh then (prog i).key? else ek e

theorem ek_lt {e : Nat} (he : e < s.sh.fresh) : ekNext prog s s' i ek e = ek e := by
  unfold ekNext; rw [if_neg]; rintro ⟨rfl, _⟩; omega

theorem ResOk.next (W : Wk eqv prog h s c ek) (hj : (s.pc j).isIdle = false) {r : Res K V} (H : ResOk eqv prog c j r) :
    ResOk eqv prog (c.next prog s s' i) j r := by
  unfold ResOk at H ⊢
  split at H
  · exact ⟨Seen.next W hj H.1, fun v hv => (H.2 v hv).imp fun _ h => ⟨Saw.next h.1, h.2⟩⟩
  · exact ⟨Seen.next W hj H.1, fun v hv => (H.2 v hv).imp fun _ h => ⟨Saw.next h.1, h.2⟩⟩
  · exact ⟨Seen.next W hj H.1, fun v hv => (H.2 v hv).imp fun _ h => ⟨Saw.next h.1, h.2⟩⟩
  · exact ⟨Seen.next W hj H.1, fun v hv => (H.2 v hv).imp fun _ h => ⟨Saw.next h.1, h.2⟩⟩
  · exact ⟨Seen.next W hj H.1, fun hv => (H.2.1 hv).imp fun _ h => ⟨Saw.next h.1, h.2⟩, fun hv => (H.2.2 hv).imp fun _ h => ⟨Saw.next h.1, h.2⟩⟩
  · exact ⟨Seen.next W hj H.1, fun hv => (H.2.1 hv).imp fun _ h => ⟨Saw.next h.1, h.2⟩, fun hv => (H.2.2 hv).imp fun _ h => ⟨Saw.next h.1, h.2⟩⟩
  · exact fun acc stop hr hs k => Seen.next W hj (H acc stop hr hs k)
  · trivial

theorem Tgt.next (W : Wk eqv prog h s c ek) (hj : (s.pc j).isIdle = false) {e : Nat} (he : e < s.sh.fresh) (H : Tgt prog c ek j e) :
    Tgt prog (c.next prog s s' i) (ekNext prog s s' i ek) j e := by
  intro k hk
  rw [ek_lt he]
  exact ⟨(H k hk).1, Near.next W hj he (H k hk).2⟩

theorem RngH.next (W : Wk eqv prog h s c ek) (hj : (s.pc j).isIdle = false) {es : List (K × Nat)} (he : ∀ k e, (k, e) ∈ es → e < s.sh.fresh)
    (H : RngH c ek j es) : RngH (c.next prog s s' i) (ekNext prog s s' i ek) j es := by
  refine ⟨fun k e h => by rw [ek_lt (he k e h)]; exact H.1 k e h, ?_⟩
  intro k t0 h0 h1
  obtain ⟨h0, h1⟩ := wr_old W hj h0 h1
  obtain ⟨t, ht, hw, hk⟩ := H.2 k t0 h0 h1
  refine ⟨t, ht, wr_mono hw, ?_⟩
  rcases hk with hk | ⟨e, hm, hk⟩
  · exact Or.inl (call_mono hk)
  · exact Or.inr ⟨e, hm, ent_mono (he k e hm) hk⟩

theorem NxH.next (W : Wk eqv prog h s c ek) (hj : (s.pc j).isIdle = false) {nx : Nx K V} (ho : NxOk prog s g j nx) (H : NxH eqv prog c ek j nx) :
    NxH eqv prog (c.next prog s s' i) (ekNext prog s s' i ek) j nx := by
  cases nx with
  | ent e => obtain ⟨_, k, hE⟩ := ho; exact Tgt.next W hj hE.lt H
  | rng m => exact RngH.next W hj (fun k e hm => (ho.2.2 k e hm).2.1) H
  | res r => exact ResOk.next W hj H

theorem PcOk.next (I : Inv eqv prog s g) (W : Wk eqv prog h s c ek) :
    PcOk eqv prog (c.next prog s s' i) (ekNext prog s s' i ek) j (s.pc j) := by
  have H := W.call j
  have hO := I.ops j
  cases hc : s.pc j with
  | ent e lk =>
    rw [hc] at H; simp only [OpOk, hc] at hO
    obtain ⟨k, hE⟩ := hO
    exact Tgt.next W (by rw [hc]; rfl) hE.lt H
  | cas e lk p =>
    rw [hc] at H; simp only [OpOk, hc] at hO
    obtain ⟨⟨k, hE⟩, _⟩ := hO
    exact ⟨Tgt.next W (by rw [hc]; rfl) hE.lt H.1, fun b hb k hk => Saw.next (H.2 b hb k hk)⟩
  | unl nx => rw [hc] at H; simp only [OpOk, hc] at hO; exact NxH.next W (by rw [hc]; rfl) hO H
  | promo nx => rw [hc] at H; simp only [OpOk, hc] at hO; exact NxH.next W (by rw [hc]; rfl) hO.2.1 H
  | rng es acc =>
    rw [hc] at H; simp only [OpOk, hc] at hO
    exact RngH.next W (by rw [hc]; rfl) (fun k e hm => (hO.2.2 k e hm).2.1) H
  | add d r => rw [hc] at H; exact ResOk.next W (by rw [hc]; rfl) H
  | fin r => rw [hc] at H; exact ResOk.next W (by rw [hc]; rfl) H
  | done r => rw [hc] at H; exact ResOk.next W (by rw [hc]; rfl) H
  | _ => trivial

/-! ### The step of a call -/

section
variable {c' : Clk K} {ek' : Nat → Option K}

theorem finish_pcok {r : Res K V} (H : ResOk eqv prog c' j r) : PcOk eqv prog c' ek' j (finish (prog j) r) := by
  unfold finish; split <;> exact H

theorem miss_pcok {h : Sh K} {nx : Nx K V} (H : NxH eqv prog c' ek' j nx) : PcOk eqv prog c' ek' j (missLocked h nx).2 := by
  simp only [missLocked]; split <;> exact H

theorem after_pcok {h : Sh K} {lk : Lk} {r : Res K V} (H : ResOk eqv prog c' j r) : PcOk eqv prog c' ek' j (after h (prog j) lk r).2 := by
  cases lk with
  | u => exact finish_pcok H
  | l => exact H
  | lm => exact miss_pcok (nx := .res r) H
end

theorem tgt_cur (I : Inv eqv prog s g) (W : Wk eqv prog h s c ek) (hj : (s.pc i).isIdle = false) {e : Nat} (hp : (prog i).key? = some k)
    (hk : cur s.sh k = some e) : Tgt prog (c.next prog s s' i) (ekNext prog s s' i ek) i e := by
  refine Tgt.next W hj (I.str.core.cur_key hk).2.1 ?_
  intro k' hk'
  rw [hp] at hk'
  cases hk'
  exact ⟨W.key k e hk, near_cur W hk⟩

/-- A result that says nothing about a value. -/
def Res.mute : Res K V → Bool
  | .opt none | .los _ false | .bool false | .unit | .int _ => true
  | _ => false

theorem res_mute {c' : Clk K} {r : Res K V} (hr : r.mute = true) (H : ∀ k, (prog j).key? = some k → c'.Seen j k) : ResOk eqv prog c' j r := by
  unfold ResOk
  split
  · next k hop => exact ⟨H k (by rw [hop]; rfl), by rintro v rfl; cases hr⟩
  · next k hop => exact ⟨H k (by rw [hop]; rfl), by rintro v rfl; cases hr⟩
  · next k _ hop => exact ⟨H k (by rw [hop]; rfl), by rintro v rfl; cases hr⟩
  · next k _ hop => exact ⟨H k (by rw [hop]; rfl), by rintro v rfl; cases hr⟩
  · next k _ _ hop => exact ⟨H k (by rw [hop]; rfl), (by rintro rfl; cases hr), (by rintro rfl; cases hr)⟩
  · next k _ hop => exact ⟨H k (by rw [hop]; rfl), (by rintro rfl; cases hr), (by rintro rfl; cases hr)⟩
  · rintro acc stop rfl; cases hr
  · trivial

theorem start_ok (I : Inv eqv prog s g) (W : Wk eqv prog h s c ek) (ho : ∀ l, (ord l).Perm l) (hc : s.pc i = .start) :
    PcOk eqv prog (c.next prog s s' i) (ekNext prog s s' i ek) i (startStep ord s.sh (prog i)) := by
  have hj : (s.pc i).isIdle = false := by rw [hc]; rfl
  have hcur : ∀ k e, aget s.sh.read.m k = some e → cur s.sh k = some e := fun k e he => by simp [cur, he]
  have none' : ∀ k r, (prog i).key? = some k → aget s.sh.read.m k = none → s.sh.read.amended = false → r.mute = true →
      ResOk eqv prog (c.next prog s s' i) i r := by
    intro k r hk hr hm hmu
    refine res_mute hmu fun k' hk' => ?_
    rw [hk] at hk'
    cases hk'
    refine seen_rd W hj ?_ (by simp [cur, hr, hm]) hm
    simp only [acqs, hc]
    split
    · next hop => rw [hop] at hk; cases hk
    · simp
  cases hop : prog i with
  | clear => simp only [startStep]; split <;> simp [PcOk, ResOk, hop]
  | len => simp [startStep, PcOk, ResOk, hop]
  | range =>
    simp only [startStep]
    split
    · trivial
    · next hm =>
      simp only [Bool.not_eq_true] at hm
      have hmem : ∀ k e, (k, e) ∈ ord s.sh.read.m → cur s.sh k = some e := fun k e hm => I.kept_cur (Or.inl ((ho _).mem_iff.1 hm))
      refine ⟨fun k e he => ?_, fun k t0 h0 h1 => ?_⟩
      · rw [ek_lt (I.str.core.cur_key (hmem k e he)).2.1]; exact W.key k e (hmem k e he)
      · obtain ⟨h0, h1⟩ := wr_old W hj h0 h1
        obtain ⟨t, ht, hw, hok⟩ := W.wr k t0 h0
        refine ⟨t, ht, wr_mono hw, ?_⟩
        cases hr : aget s.sh.read.m k with
        | some e =>
          right
          simp only [Ok1, hcur k e hr] at hok
          exact ⟨e, (ho _).mem_iff.2 (mem_of_aget hr), ent_mono (I.str.core.cur_key (hcur k e hr)).2.1 hok.1⟩
        | none =>
          left
          have : cur s.sh k = none := by simp [cur, hr, hm]
          simp only [Ok1, this] at hok
          exact call_acq (by simp [acqs, hc, hop]) (hok.2 hm)
  | swap k v =>
    simp only [startStep]
    split
    · next e he => exact tgt_cur I W hj (by rw [hop]; rfl) (hcur k e he)
    · trivial
  | loadOrStore k v =>
    simp only [startStep]
    split
    · next e he => exact tgt_cur I W hj (by rw [hop]; rfl) (hcur k e he)
    · trivial
  | _ =>
    simp only [startStep]
    split
    · next e he => exact tgt_cur I W hj (by rw [hop]; rfl) (hcur _ e he)
    · next he =>
      split
      · trivial
      · next hm => exact none' _ _ (by rw [hop]; rfl) he (by simpa using hm) rfl

theorem crit_ok (I : Inv eqv prog s g) (W : Wk eqv prog h s c ek) (hn : next eqv prog ord go s i = some s') (hc : s.pc i = .crit) :
    PcOk eqv prog (c.next prog s s' i) (ekNext prog s s' i ek) i (critStep s.sh i (prog i)).2 := by
  have hj : (s.pc i).isIdle = false := by rw [hc]; rfl
  have hl : (s.pc i).locked = true := by rw [hc]; rfl
  have hC := I.coreOf hc rfl
  have hcur : ∀ k e, aget s.sh.read.m k = some e → cur s.sh k = some e := fun k e he => by simp [cur, he]
  have hdir : ∀ k e, aget (s.sh.dirty.getD []) k = some e → cur s.sh k = some e := by
    intro k e he
    cases hd : s.sh.dirty with
    | none => rw [hd] at he; cases he
    | some d => rw [hd] at he; exact hC.dirty_is_cur (fun _ => rfl) hd he
  have none' : ∀ k r, (prog i).key? = some k → cur s.sh k = none → r.mute = true → ResOk eqv prog (c.next prog s s' i) i r := by
    intro k r hk hr hmu
    refine res_mute hmu fun k' hk' => ?_
    rw [hk] at hk'
    cases hk'
    exact Seen.next W hj (seen_lk I W hl hr)
  have put' : ∀ k r, (prog i).key? = some k → cur s.sh k = none → s.sh.dirty ≠ none → critStep s.sh i (prog i) = putNew s.sh i k r →
      aget s.sh.read.m k = none → s.sh.read.amended = true → r.mute = true → PcOk eqv prog (c.next prog s s' i) (ekNext prog s s' i ek) i (putNew s.sh i k r).2 := by
    intro k r hk hr hd hcr hrm hm hmu
    obtain ⟨d, hd⟩ := Option.ne_none_iff_exists'.1 hd
    have hn' := hn
    simp only [next, hc, hcr, Option.some.injEq] at hn'
    have : Wrote prog s s' i k := by
      left
      have h0 : content s.sh k = none := by simp [content, hr]
      rw [h0, ← hn']
      simp [goto_sh, content, putNew, hd, cur, hrm, hm, aget_aput]
    simp only [putNew, hd]
    refine res_mute hmu fun k' hk' => ?_
    rw [hk] at hk'
    cases hk'
    exact seen_new W hj this
  cases hop : prog i with
  | clear => simp only [critStep]; split <;> trivial
  | len => trivial
  | range =>
    have hmem : ∀ k e, (k, e) ∈ s.sh.read.m ∨ (∃ d, s.sh.dirty = some d ∧ (k, e) ∈ d) → cur s.sh k = some e := fun k e hm => I.kept_cur hm
    simp only [critStep]
    split
    · next hm =>
      obtain ⟨d, hd⟩ := Option.ne_none_iff_exists'.1 (hC.amd hm)
      simp only [hd, Option.getD_some]
      refine ⟨fun k e he => ?_, fun k t0 h0 h1 => ?_⟩
      · have := hmem k e (Or.inr ⟨d, hd, he⟩)
        rw [ek_lt (I.str.core.cur_key this).2.1]; exact W.key k e this
      · obtain ⟨h0, h1⟩ := wr_old W hj h0 h1
        obtain ⟨t, ht, hw, hok⟩ := W.wr k t0 h0
        refine ⟨t, ht, wr_mono hw, ?_⟩
        cases hr : aget d k with
        | some e =>
          right
          have hcu := hdir k e (by rw [hd]; exact hr)
          simp only [Ok1, hcu] at hok
          exact ⟨e, mem_of_aget hr, ent_mono (I.str.core.cur_key hcu).2.1 hok.1⟩
        | none =>
          left
          cases hrm : aget s.sh.read.m k with
          | none =>
            have : cur s.sh k = none := by simp [cur, hrm, hm, hd, hr]
            simp only [Ok1, this] at hok
            exact call_mono ((lk_self I hl).1 hok.1)
          | some e =>
            have hx := hC.con d hd k e hrm (by simp [PC.remaining])
            rw [hr] at hx
            have hexp : s.sh.ent e = .exp := by
              by_cases hx' : s.sh.ent e = .exp
              · exact hx'
              · rw [if_neg hx'] at hx; cases hx
            simp only [Ok1, hcur k e hrm] at hok
            exact call_mono ((lk_self I hl).1 (hok.2 hexp))
    · next hm =>
      simp only [Bool.not_eq_true] at hm
      refine ⟨fun k e he => ?_, fun k t0 h0 h1 => ?_⟩
      · have := hmem k e (Or.inl he)
        rw [ek_lt (I.str.core.cur_key this).2.1]; exact W.key k e this
      · obtain ⟨h0, h1⟩ := wr_old W hj h0 h1
        obtain ⟨t, ht, hw, hok⟩ := W.wr k t0 h0
        refine ⟨t, ht, wr_mono hw, ?_⟩
        cases hr : aget s.sh.read.m k with
        | some e =>
          right
          simp only [Ok1, hcur k e hr] at hok
          exact ⟨e, mem_of_aget hr, ent_mono (I.str.core.cur_key (hcur k e hr)).2.1 hok.1⟩
        | none =>
          left
          have : cur s.sh k = none := by simp [cur, hr, hm]
          simp only [Ok1, this] at hok
          exact call_mono ((lk_self I hl).1 hok.1)
  | swap k v =>
    rw [hop] at put'
    simp only [critStep]
    split
    · trivial
    · next hr =>
      split
      · trivial
      · next hd =>
        split
        · next hm => exact put' k _ rfl (by simp [cur, hr, hd]) (hC.amd hm) (by simp [critStep, hr, hd, hm]) hr hm rfl
        · trivial
  | loadOrStore k v =>
    rw [hop] at put'
    simp only [critStep]
    split
    · trivial
    · next hr =>
      split
      · next e he => exact tgt_cur I W hj (by rw [hop]; rfl) (hdir k e he)
      · next hd =>
        split
        · next hm => exact put' k _ rfl (by simp [cur, hr, hd]) (hC.amd hm) (by simp [critStep, hr, hd, hm]) hr hm rfl
        · trivial
  | compareAndSwap k old new =>
    simp only [critStep]
    split
    · next e he => exact tgt_cur I W hj (by rw [hop]; rfl) (hcur _ e he)
    · next hr =>
      split
      · next e he => exact tgt_cur I W hj (by rw [hop]; rfl) (hdir k e he)
      · next hd => exact none' k _ (by rw [hop]; rfl) (by simp [cur, hr, hd]) rfl
  | load k =>
    simp only [critStep]
    split
    · next e he => exact tgt_cur I W hj (by rw [hop]; rfl) (hcur _ e he)
    · next hr =>
      split
      · split
        · next e he => exact miss_pcok (nx := .ent e) (tgt_cur I W hj (by rw [hop]; rfl) (hdir k e he))
        · next hd => exact miss_pcok (nx := .res _) (none' k _ (by rw [hop]; rfl) (by simp [cur, hr, hd]) rfl)
      · next hm => exact none' k _ (by rw [hop]; rfl) (by simp [cur, hr, hm]) rfl
  | compareAndDelete k old =>
    simp only [critStep]
    split
    · next e he => exact tgt_cur I W hj (by rw [hop]; rfl) (hcur _ e he)
    · next hr =>
      split
      · split
        · next e he => exact miss_pcok (nx := .ent e) (tgt_cur I W hj (by rw [hop]; rfl) (hdir k e he))
        · next hd => exact miss_pcok (nx := .res _) (none' k _ (by rw [hop]; rfl) (by simp [cur, hr, hd]) rfl)
      · next hm => exact none' k _ (by rw [hop]; rfl) (by simp [cur, hr, hm]) rfl
  | loadAndDelete k =>
    simp only [critStep]
    split
    · next e he => exact tgt_cur I W hj (by rw [hop]; rfl) (hcur _ e he)
    · next hr =>
      split
      · split
        · next e he => exact miss_pcok (nx := .ent e) (tgt_cur I W hj (by rw [hop]; rfl) (hdir k e he))
        · next hd => exact miss_pcok (nx := .res _) (none' k _ (by rw [hop]; rfl) (by simp [cur, hr, hd]) rfl)
      · next hm => exact none' k _ (by rw [hop]; rfl) (by simp [cur, hr, hm]) rfl

theorem ent_ok (I : Inv eqv prog s g) (W : Wk eqv prog h s c ek) {e : Nat} {lk : Lk} (hc : s.pc i = .ent e lk) :
    PcOk eqv prog (c.next prog s s' i) (ekNext prog s s' i ek) i (entStep eqv prog s.sh (prog i) e lk).2 := by
  have hj : (s.pc i).isIdle = false := by rw [hc]; rfl
  have hp : (s.pc i).post = false := by rw [hc]; rfl
  have ha : Loc.ent e ∈ acqs prog s i := by simp [acqs, hc]
  have hO := I.ops i
  simp only [OpOk, hc] at hO
  obtain ⟨k, hE⟩ := hO
  have H := W.call i
  rw [hc] at H
  have hT : Tgt prog c ek i e := H
  obtain ⟨hek, hnear⟩ := hT k hE.key
  have hseen : (c.next prog s s' i).Seen i k := Near.seen W hj ha hnear
  have hT' : Tgt prog (c.next prog s s' i) (ekNext prog s s' i ek) i e := Tgt.next W hj hE.lt hT
  have saw : ∀ b, s.sh.ent e = .val b → (c.next prog s s' i).Saw prog i k b := fun b hb => saw_ent W ha hb hp hek
  have mute : ∀ r : Res K V, r.mute = true → ResOk eqv prog (c.next prog s s' i) i r := by
    intro r hr
    refine res_mute hr fun k' hk' => ?_
    rw [hE.key] at hk'; cases hk'; exact hseen
  have cas : ∀ p, (∀ b, p = .val b → s.sh.ent e = .val b) → PcOk eqv prog (c.next prog s s' i) (ekNext prog s s' i ek) i (.cas e lk p) := by
    intro p hp'
    refine ⟨hT', fun b hb k' hk' => ?_⟩
    rw [hE.key] at hk'; cases hk'; exact saw b (hp' b hb)
  have hkey := hE.key
  cases hop : prog i with
  | load k0 =>
    rw [hop] at hkey; cases hkey
    simp only [entStep]
    rw [← hop]
    refine after_pcok ?_
    simp only [ResOk, hop]
    refine ⟨hseen, fun v hv => ?_⟩
    cases hpe : s.sh.ent e with
    | val b => rw [hpe] at hv; simp only [deref, Res.opt.injEq, Option.some.injEq] at hv; exact ⟨b, saw b hpe, hv⟩
    | _ => rw [hpe] at hv; cases hv
  | swap k0 v =>
    simp only [entStep]
    split
    · trivial
    · exact cas _ fun b hb => hb
  | loadOrStore k0 v =>
    rw [hop] at hkey; cases hkey
    simp only [entStep]
    split
    · split
      · trivial
      · rw [← hop]; exact after_pcok (mute _ rfl)
    · next b hpe =>
      rw [← hop]
      refine after_pcok ?_
      simp only [ResOk, hop]
      refine ⟨hseen, fun w hw => ⟨b, saw b hpe, ?_⟩⟩
      simpa using hw
    · exact cas _ fun b hb => by cases hb
  | loadAndDelete k0 =>
    simp only [entStep]
    split
    · next b hpe => exact cas _ fun b hb => hb
    · rw [← hop]; exact after_pcok (mute _ rfl)
  | compareAndSwap k0 old new =>
    rw [hop] at hkey; cases hkey
    simp only [entStep]
    split
    · next b hpe =>
      split
      · exact cas _ fun b hb => hb
      · rw [← hop]; exact after_pcok (mute _ rfl)
      · next hq =>
        rw [← hop]
        refine after_pcok ?_
        simp only [ResOk, hop]
        exact ⟨hseen, nofun, fun _ => ⟨b, saw b hpe, hq⟩⟩
    · rw [← hop]; exact after_pcok (mute _ rfl)
  | compareAndDelete k0 old =>
    rw [hop] at hkey; cases hkey
    simp only [entStep]
    split
    · next b hpe =>
      split
      · exact cas _ fun b hb => hb
      · rw [← hop]; exact after_pcok (mute _ rfl)
      · next hq =>
        rw [← hop]
        refine after_pcok ?_
        simp only [ResOk, hop]
        exact ⟨hseen, nofun, fun _ => ⟨b, saw b hpe, hq⟩⟩
    · rw [← hop]; exact after_pcok (mute _ rfl)
  | _ => rw [hop] at hkey; cases hkey

theorem cas_ok (I : Inv eqv prog s g) (W : Wk eqv prog h s c ek) {e : Nat} {lk : Lk} {p : Ptr} (hc : s.pc i = .cas e lk p) :
    PcOk eqv prog (c.next prog s s' i) (ekNext prog s s' i ek) i (casStep prog s.sh i (prog i) e lk p).2 := by
  have hj : (s.pc i).isIdle = false := by rw [hc]; rfl
  have ha : Loc.ent e ∈ acqs prog s i := by simp [acqs, hc]
  have hO := I.ops i
  simp only [OpOk, hc] at hO
  obtain ⟨⟨k, hE⟩, hG⟩ := hO
  have H := W.call i
  rw [hc] at H
  obtain ⟨hT, hS⟩ := H
  obtain ⟨hek, hnear⟩ := hT k hE.key
  have hseen : (c.next prog s s' i).Seen i k := Near.seen W hj ha hnear
  have hT' : Tgt prog (c.next prog s s' i) (ekNext prog s s' i ek) i e := Tgt.next W hj hE.lt hT
  have saw : ∀ b, p = .val b → (c.next prog s s' i).Saw prog i k b := fun b hb => Saw.next (hS b hb k hE.key)
  have mute : ∀ r : Res K V, r.mute = true → ResOk eqv prog (c.next prog s s' i) i r := by
    intro r hr
    refine res_mute hr fun k' hk' => ?_
    rw [hE.key] at hk'; cases hk'; exact hseen
  have hkey := hE.key
  have optOk : ∀ v, (Res.opt (deref prog p) : Res K V) = .opt (some v) → ∃ b, (c.next prog s s' i).Saw prog i k b ∧ (prog b).arg = v := by
    intro v hv
    cases hpe : p with
    | val b => rw [hpe] at hv; simp only [deref, Res.opt.injEq, Option.some.injEq] at hv; exact ⟨b, saw b hpe, hv⟩
    | _ => rw [hpe] at hv; cases hv
  simp only [casStep]
  split
  swap
  · exact hT'
  cases hop : prog i with
  | swap k0 v =>
    rw [hop] at hkey; cases hkey
    simp only
    rw [← hop]
    refine after_pcok ?_
    simp only [ResOk, hop]
    exact ⟨hseen, optOk⟩
  | loadOrStore k0 v => simp only; rw [← hop]; exact after_pcok (mute _ rfl)
  | loadAndDelete k0 =>
    rw [hop] at hkey; cases hkey
    simp only
    rw [← hop]
    refine after_pcok ?_
    simp only [ResOk, hop]
    exact ⟨hseen, optOk⟩
  | compareAndSwap k0 old new =>
    rw [hop] at hkey hG; cases hkey
    obtain ⟨b, hb, hq⟩ := hG
    simp only
    rw [← hop]
    refine after_pcok ?_
    simp only [ResOk, hop]
    exact ⟨hseen, fun _ => ⟨b, saw b hb, hq⟩, nofun⟩
  | compareAndDelete k0 old =>
    rw [hop] at hkey hG; cases hkey
    obtain ⟨b, hb, hq⟩ := hG
    simp only
    rw [← hop]
    refine after_pcok ?_
    simp only [ResOk, hop]
    exact ⟨hseen, fun _ => ⟨b, saw b hb, hq⟩, nofun⟩
  | load k0 => rw [hop] at hG; cases hG
  | _ => rw [hop] at hkey; cases hkey

/-- What a call knows after its step. -/
theorem self_ok (I : Inv eqv prog s g) (W : Wk eqv prog h s c ek) (ho : ∀ l, (ord l).Perm l) (hn : next eqv prog ord go s i = some s') :
    PcOk eqv prog (c.next prog s s' i) (ekNext prog s s' i ek) i (s'.pc i) := by
  have hO := I.ops i
  have hn' := hn
  have H := W.call i
  simp only [next] at hn
  cases hc : s.pc i with
  | idle => simp only [hc, Option.some.injEq] at hn; rw [← hn, goto_pc_self]; trivial
  | start => simp only [hc, Option.some.injEq] at hn; rw [← congrFun (congrArg State.pc hn) i, goto_pc_self]; exact start_ok I W ho hc
  | acq =>
    simp only [hc] at hn
    split at hn
    · simp only [Option.some.injEq] at hn; rw [← congrFun (congrArg State.pc hn) i, goto_pc_self]; trivial
    · cases hn
  | crit => simp only [hc, Option.some.injEq] at hn; rw [← congrFun (congrArg State.pc hn) i, goto_pc_self]; exact crit_ok I W hn' hc
  | ent e lk => simp only [hc, Option.some.injEq] at hn; rw [← congrFun (congrArg State.pc hn) i, goto_pc_self]; exact ent_ok I W hc
  | cas e lk p => simp only [hc, Option.some.injEq] at hn; rw [← congrFun (congrArg State.pc hn) i, goto_pc_self]; exact cas_ok I W hc
  | unexp e =>
    simp only [OpOk, hc] at hO
    obtain ⟨hadd, k, hk, hr⟩ := hO
    simp only [hc, Option.some.injEq] at hn; rw [← congrFun (congrArg State.pc hn) i, goto_pc_self]
    have hT := tgt_cur (s' := s') I W (by rw [hc]; rfl) hk (show cur s.sh k = some e by simp [cur, hr])
    simp only [unexpStep]
    repeat' split
    all_goals first | exact hT | trivial
  | swp e =>
    simp only [OpOk, hc] at hO
    obtain ⟨hx, k, v, hop, hcu⟩ := hO
    simp only [hc, Option.some.injEq] at hn; rw [← congrFun (congrArg State.pc hn) i, goto_pc_self]
    have ha : Loc.ent e ∈ acqs prog s i := by simp [acqs, hc]
    have hseen : (c.next prog s s' i).Seen i k := Near.seen W (by rw [hc]; rfl) ha (near_cur W hcu)
    simp only [swpStep, PcOk, NxH, ResOk, hop]
    refine ⟨hseen, fun w hw => ?_⟩
    cases hpe : s.sh.ent e with
    | val b =>
      rw [hpe] at hw; simp only [deref, Res.opt.injEq, Option.some.injEq] at hw
      exact ⟨b, saw_ent W ha hpe (by rw [hc]; rfl) (W.key k e hcu), hw⟩
    | _ => rw [hpe] at hw; cases hw
  | amend rm =>
    simp only [OpOk, hc] at hO
    obtain ⟨⟨k, hadd, hk, rfl, hm, hr⟩, hd⟩ := hO
    have hcn : cur s.sh k = none := by simp [cur, hr, hm]
    obtain ⟨d, hd⟩ := Option.ne_none_iff_exists'.1 hd
    simp only [hc, hk, Option.some.injEq] at hn
    have hw : Wrote prog s s' i k := by
      left
      have h0 : content s.sh k = none := by simp [content, hcn]
      rw [h0, ← hn]
      simp [goto_sh, content, putNew, hd, cur, hr, aget_aput]
    rw [← congrFun (congrArg State.pc hn) i, goto_pc_self]
    simp only [putNew, hd]
    refine res_mute ?_ fun k' hk' => ?_
    · unfold newRes; split <;> rfl
    · rw [hk] at hk'; cases hk'; exact seen_new W (by rw [hc]; rfl) hw
  | promo nx =>
    rw [hc] at H; simp only [OpOk, hc] at hO
    simp only [hc, Option.some.injEq] at hn; rw [← congrFun (congrArg State.pc hn) i, goto_pc_self]
    exact NxH.next W (by rw [hc]; rfl) hO.2.1 H
  | wipe => simp only [hc, Option.some.injEq] at hn; rw [← congrFun (congrArg State.pc hn) i, goto_pc_self]; trivial
  | zero =>
    simp only [OpOk, hc] at hO
    simp only [hc, Option.some.injEq] at hn; rw [← congrFun (congrArg State.pc hn) i, goto_pc_self]
    simp [PcOk, NxH, ResOk, hO]
  | unl nx =>
    rw [hc] at H; simp only [OpOk, hc] at hO
    have := NxH.next (s' := s') (i := i) W (by rw [hc]; rfl) hO H
    cases nx with
    | ent e => simp only [hc, Option.some.injEq] at hn; rw [← congrFun (congrArg State.pc hn) i, goto_pc_self]; exact this
    | rng m =>
      simp only [hc, Option.some.injEq] at hn; rw [← congrFun (congrArg State.pc hn) i, goto_pc_self]
      refine ⟨fun k e he => this.1 k e ((ho m).mem_iff.1 he), fun k t0 h0 h1 => ?_⟩
      obtain ⟨t, ht, hw, hk⟩ := this.2 k t0 h0 h1
      exact ⟨t, ht, hw, hk.imp id fun ⟨e, he, hl⟩ => ⟨e, (ho m).mem_iff.2 he, hl⟩⟩
    | res r => simp only [hc, Option.some.injEq] at hn; rw [← congrFun (congrArg State.pc hn) i, goto_pc_self]; exact finish_pcok this
  | rng es acc =>
    rw [hc] at H; simp only [OpOk, hc] at hO
    have hj : (s.pc i).isIdle = false := by rw [hc]; rfl
    cases es with
    | nil =>
      simp only [hc, Option.some.injEq] at hn; rw [← congrFun (congrArg State.pc hn) i, goto_pc_self]
      simp only [PcOk, ResOk, hO.1]
      intro _ _ _ _ k t0 h0 h1
      obtain ⟨h0, h1⟩ := wr_old W hj h0 h1
      obtain ⟨t, ht, hw, hk⟩ := H.2 k t0 h0 h1
      rcases hk with hk | ⟨e, he, _⟩
      · exact ⟨t, ht, wr_mono hw, call_mono hk⟩
      · cases he
    | cons x es =>
      obtain ⟨k0, e0⟩ := x
      have main : RngH (c.next prog s s' i) (ekNext prog s s' i ek) i es := by
        refine ⟨fun k e he => ?_, fun k t0 h0 h1 => ?_⟩
        · rw [ek_lt (hO.2.2 k e (List.mem_cons_of_mem _ he)).2.1]; exact H.1 k e (List.mem_cons_of_mem _ he)
        · obtain ⟨h0, h1⟩ := wr_old W hj h0 h1
          obtain ⟨t, ht, hw, hk⟩ := H.2 k t0 h0 h1
          refine ⟨t, ht, wr_mono hw, ?_⟩
          rcases hk with hk | ⟨e, he, hk⟩
          · exact Or.inl (call_mono hk)
          · rcases List.mem_cons.1 he with he' | he'
            · cases he'; exact Or.inl (call_acq (by simp [acqs, hc]) hk)
            · exact Or.inr ⟨e, he', ent_mono (hO.2.2 k e he).2.1 hk⟩
      simp only [hc] at hn
      split at hn
      · simp only [Option.some.injEq] at hn; rw [← congrFun (congrArg State.pc hn) i, goto_pc_self]; exact main
      · split at hn
        · simp only [Option.some.injEq] at hn; rw [← congrFun (congrArg State.pc hn) i, goto_pc_self]; exact main
        · simp only [Option.some.injEq] at hn; rw [← congrFun (congrArg State.pc hn) i, goto_pc_self]
          simp only [PcOk, ResOk, hO.1]
          rintro _ _ h hs
          cases h; cases hs
  | add d r => rw [hc] at H; simp only [hc, Option.some.injEq] at hn; rw [← congrFun (congrArg State.pc hn) i, goto_pc_self]; exact ResOk.next W (by rw [hc]; rfl) H
  | fin r => rw [hc] at H; simp only [hc, Option.some.injEq] at hn; rw [← congrFun (congrArg State.pc hn) i, goto_pc_self]; exact ResOk.next W (by rw [hc]; rfl) H
  | done r => simp only [hc] at hn; cases hn
  | panic => simp only [hc] at hn; cases hn
  | _ =>
    simp only [hc] at hn
    repeat' split at hn
    all_goals first
      | cases hn; done
      | (simp only [Option.some.injEq] at hn; rw [← congrFun (congrArg State.pc hn) i, goto_pc_self]; trivial)

theorem next_notIdle (I : Inv eqv prog s g) (ho : ∀ l, (ord l).Perm l) (hn : next eqv prog ord go s i = some s') : (s'.pc i).isIdle = false := by
  have : s'.pc i ≠ .idle := by
    by_cases hi : s.pc i = .idle
    · simp only [next, hi, Option.some.injEq] at hn; rw [← hn, goto_pc_self]; nofun
    · exact next_ne_idle I ho hn hi
  cases hc : s'.pc i <;> first | rfl | exact absurd hc this

theorem Wk.step (I : Inv eqv prog s g) (W : Wk eqv prog h s c ek) (ho : ∀ l, (ord l).Perm l) (hn : next eqv prog ord go s i = some s') :
    Wk eqv prog (h ++ event prog s i) s' (c.next prog s s' i) (ekNext prog s s' i ek) := by
  have hoth : ∀ j, j ≠ i → s'.pc j = s.pc j := fun j hj => next_other hn hj
  have hself := self_ok I W ho hn
  refine ⟨?_, ?_, ?_, ?_, ?_, ?_, ?_, ?_, ?_, ?_⟩
  · intro t ht
    by_cases hr : Loc.rd ∈ rels prog s i
    · rw [loc_rel hr] at ht
      exact lk_held I hn (rd_locked hr).1 (rd_locked hr).2 (call_self.2 ht)
    · exact lk_mono I hn (W.rd t ((loc_same hr).1 ht))
  · intro e b he
    have hfr := (next_mf I hn).2
    rcases next_ent_rel I hn e with h1 | ⟨hr, ⟨h1, hp, h2, _⟩ | ⟨h1, _⟩ | ⟨h1, _⟩⟩
    · rw [h1] at he
      obtain ⟨hlt, k, t, a1, a2, a3, a4⟩ := W.val e b he
      exact ⟨by omega, k, t, by rw [ek_lt hlt]; exact a1, a2, put_mono a3, ent_mono hlt a4⟩
    · by_cases hch : s'.sh.ent e = s.sh.ent e
      · rw [hch] at he
        obtain ⟨hlt, k, t, a1, a2, a3, a4⟩ := W.val e b he
        exact ⟨by omega, k, t, by rw [ek_lt hlt]; exact a1, a2, put_mono a3, ent_mono hlt a4⟩
      have he' := he
      rw [h1] at he'
      cases he'
      have hput : (c.next prog s s' i).put i c.n := Or.inr ⟨rfl, rfl, e, hch, h1⟩
      have hloc : (c.next prog s s' i).loc (.ent e) c.n := (loc_rel hr).2 (Or.inr (Or.inl rfl))
      rcases h2 with ⟨rfl, h3, h4⟩ | ⟨lk, p, hc⟩ | hc
      · obtain ⟨k, hk⟩ : ∃ k, (prog i).key? = some k := by
          cases hop : prog i <;> rw [hop] at h4 <;> first | (cases h4; done) | exact ⟨_, rfl⟩
        exact ⟨by omega, k, c.n, by rw [ekNext, if_pos ⟨rfl, by omega⟩]; exact hk, hk, hput, hloc⟩
      · have hO := I.ops i
        simp only [OpOk, hc] at hO
        obtain ⟨⟨k, hE⟩, _⟩ := hO
        have H := W.call i
        rw [hc] at H
        exact ⟨Nat.lt_of_lt_of_le hE.lt hfr, k, c.n, by rw [ek_lt hE.lt]; exact (H.1 k hE.key).1, hE.key, hput, hloc⟩
      · have hO := I.ops i
        simp only [OpOk, hc] at hO
        obtain ⟨_, k, v, hop, hcu⟩ := hO
        have hlt := (I.str.core.cur_key hcu).2.1
        exact ⟨by omega, k, c.n, by rw [ek_lt hlt]; exact W.key k e hcu, by rw [hop]; rfl, hput, hloc⟩
    · rw [he] at h1; cases h1
    · rw [he] at h1; cases h1
  · intro k e he
    rcases next_cur I hn k with h1 | ⟨nx, e', hc, h1, h2, h3⟩ | ⟨h1, h2, h3, h4, _⟩ | ⟨_, _, _, _, _, h3⟩ | ⟨_, h1, _⟩
    · rw [h1] at he
      rw [ek_lt (I.str.core.cur_key he).2.1]; exact W.key k e he
    · rw [he] at h3; cases h3
    · rw [he] at h2; cases h2
      rw [ekNext, if_pos ⟨rfl, by omega⟩]; exact h4
    · rw [he] at h3; cases h3
    · rw [he] at h1; cases h1
  · intro k t0 h0
    by_cases hw : Wrote prog s s' i k
    · refine ⟨c.n, ?_, Or.inr ⟨rfl, hw⟩, ok1_now I hn hw⟩
      rcases h0 with h0 | ⟨rfl, _⟩
      · exact Nat.le_of_lt (W.lt k t0 h0)
      · exact Nat.le_refl _
    · rcases h0 with h0 | ⟨_, h0⟩
      · obtain ⟨t, ht, hwr, hok⟩ := W.wr k t0 h0
        exact ⟨t, ht, wr_mono hwr, ok1_next I hn W hw hok⟩
      · exact absurd h0 hw
  · intro k t ht
    show t < c.n + 1
    rcases ht with ht | ⟨rfl, _⟩
    · have := W.lt k t ht; omega
    · omega
  · intro j hj
    show _ < c.n + 1
    by_cases hji : j = i ∧ (s.pc i).isIdle = true
    · simp only [Clk.next, if_pos hji]; omega
    · simp only [Clk.next, if_neg hji]
      have : (s.pc j).isIdle = false := by
        by_cases h : j = i
        · subst h; simpa using hji
        · rw [← hoth j h]; exact hj
      have := W.inv j this
      omega
  · intro b t hb
    show _ ∧ _ ∧ t < c.n + 1
    rcases hb with hb | ⟨rfl, rfl, e, h1, h2⟩
    · obtain ⟨hp, hs, hlt⟩ := W.put b t hb
      refine ⟨?_, hs, by omega⟩
      by_cases hbi : b = i
      · subst hbi; exact next_post hn hp
      · rw [hoth b hbi]; exact hp
    · rcases next_ent_rel I hn e with h3 | ⟨_, ⟨_, h3, _, h4⟩ | ⟨h3, _⟩ | ⟨h3, _⟩⟩
      · exact absurd h3 h1
      · exact ⟨h3, h4, by omega⟩
      · rw [h2] at h3; cases h3
      · rw [h2] at h3; cases h3
  · intro b t t' hb hb'
    have excl : ∀ t, c.put i t → ∀ e, s'.sh.ent e ≠ s.sh.ent e → s'.sh.ent e = .val i → False := by
      intro t ht e h1 h2
      have hpost := (W.put i t ht).1
      rcases next_ent_rel I hn e with h3 | ⟨_, ⟨_, _, ⟨_, h3, h4⟩ | ⟨_, _, hc⟩ | hc, _⟩ | ⟨h3, _⟩ | ⟨h3, _⟩⟩
      · exact h1 h3
      · have := post_fresh hn hpost
        omega
      · rw [hc] at hpost; cases hpost
      · rw [hc] at hpost; cases hpost
      · rw [h2] at h3; cases h3
      · rw [h2] at h3; cases h3
    rcases hb with hb | ⟨rfl, rfl, e, h1, h2⟩ <;> rcases hb' with hb' | ⟨rfl, hb2, e', h1', h2'⟩
    · exact W.once b t t' hb hb'
    · subst hb2; exact (excl t hb e' h1' h2').elim
    · exact (excl t' hb' e h1 h2).elim
    · rfl
  · intro j
    by_cases hj : j = i
    · subst hj; exact hself
    · rw [hoth j hj]; exact PcOk.next I W
  · intro ev hev
    rcases List.mem_append.1 hev with hev | hev
    · have := W.hist ev hev
      cases ev with
      | inv _ => trivial
      | visit j k v => exact this.imp fun _ h => ⟨Saw.next h.1, h.2⟩
      | ret j r =>
        refine ⟨?_, ResOk.next W this.1 this.2⟩
        by_cases hj : j = i
        · subst hj; exact next_notIdle I ho hn
        · rw [hoth j hj]; exact this.1
    · rcases event_cases (prog := prog) s i with ⟨h1, h2⟩ | ⟨r, h1, h2⟩ | ⟨k, e, es, acc, v, h1, h2, h3⟩ | h2
      · rw [h2] at hev; simp only [List.mem_singleton] at hev; subst hev; trivial
      · rw [h2] at hev; simp only [List.mem_singleton] at hev; subst hev
        have H := W.call i
        rw [h1] at H
        exact ⟨next_notIdle I ho hn, ResOk.next W (by rw [h1]; rfl) H⟩
      · rw [h3] at hev; simp only [List.mem_singleton] at hev; subst hev
        have H := W.call i
        rw [h1] at H
        cases hpe : s.sh.ent e with
        | val b =>
          rw [hpe] at h2; simp only [deref, Option.some.injEq] at h2
          exact ⟨b, saw_ent W (by simp [acqs, h1]) hpe (by rw [h1]; rfl) (H.1 k e (by simp)), h2⟩
        | _ => rw [hpe] at h2; cases h2
      · rw [h2] at hev; cases hev

theorem CExec.wk (hx : CExec eqv prog h s c) : ∃ ek, Wk eqv prog h s c ek := by
  induction hx with
  | init => exact ⟨_, Wk.init⟩
  | step hx ho hn ih =>
    obtain ⟨ek, W⟩ := ih
    obtain ⟨g, I, _⟩ := exec_inv hx.exec
    exact ⟨_, W.step I ho hn⟩

end

/-! ## C152: values -/

/-- **C152**: a call that gets or recognizes a value for `k` knows about the step with which another call put that value into the map for `k`: it happens
before the return. -/
theorem rwmap_value_sync {c : Clk K} (hx : CExec eqv prog h s c) {r : Res K V} {v : V} (hr : .ret i r ∈ h)
    (hv : (prog i).Took eqv k r v ∨ (prog i).Saw k r v) :
    ∃ b u, b ≠ i ∧ (prog b).Stored k u ∧ ((prog i).Took eqv k r u ∨ (prog i).Saw k r u) ∧ ∃ t, c.put b t ∧ c.call i t := by
  obtain ⟨ek, W⟩ := hx.wk
  obtain ⟨_, H⟩ := W.hist _ hr
  have stored : ∀ b k, c.Saw prog i k b → (prog b).Stored k (prog b).arg := by
    rintro b k ⟨_, hk, t, ht, _⟩
    obtain ⟨_, ⟨k', h'⟩, _⟩ := W.put b t ht
    have : k' = k := by
      rcases h' with h' | h' | ⟨u, h'⟩ <;> rw [h'] at hk <;> exact Option.some.inj hk
    exact this ▸ h'
  unfold ResOk at H
  rcases hv with (⟨hop, rfl⟩ | ⟨n, hop, rfl⟩ | ⟨o, hop, rfl, _⟩ | ⟨o, n, hop, rfl, _⟩) | ⟨hop, rfl⟩ | ⟨n, hop, rfl⟩
  · simp only [hop] at H
    obtain ⟨b, hb, rfl⟩ := H.2 v rfl
    exact ⟨b, _, hb.1, stored b k hb, Or.inl (Or.inl ⟨hop, rfl⟩), hb.2.2⟩
  · simp only [hop] at H
    obtain ⟨b, hb, rfl⟩ := H.2 v rfl
    exact ⟨b, _, hb.1, stored b k hb, Or.inl (Or.inr (Or.inl ⟨n, hop, rfl⟩)), hb.2.2⟩
  · simp only [hop] at H
    obtain ⟨b, hb, hq⟩ := H.2.1 trivial
    exact ⟨b, _, hb.1, stored b k hb, Or.inl (Or.inr (Or.inr (Or.inl ⟨o, hop, rfl, hq⟩))), hb.2.2⟩
  · simp only [hop] at H
    obtain ⟨b, hb, hq⟩ := H.2.1 trivial
    exact ⟨b, _, hb.1, stored b k hb, Or.inl (Or.inr (Or.inr (Or.inr ⟨o, n, hop, rfl, hq⟩))), hb.2.2⟩
  · simp only [hop] at H
    obtain ⟨b, hb, rfl⟩ := H.2 v rfl
    exact ⟨b, _, hb.1, stored b k hb, Or.inr (Or.inl ⟨hop, rfl⟩), hb.2.2⟩
  · simp only [hop] at H
    obtain ⟨b, hb, rfl⟩ := H.2 v rfl
    exact ⟨b, _, hb.1, stored b k hb, Or.inr (Or.inr ⟨n, hop, rfl⟩), hb.2.2⟩

/-- **C152**: the same for the values that a Range call passes to its function. -/
theorem rwmap_visit_sync {c : Clk K} (hx : CExec eqv prog h s c) {v : V} (hr : .visit i k v ∈ h) :
    ∃ b, b ≠ i ∧ (prog b).Stored k v ∧ ∃ t, c.put b t ∧ c.call i t := by
  obtain ⟨ek, W⟩ := hx.wk
  obtain ⟨b, ⟨h1, hk, t, ht, h2⟩, rfl⟩ := W.hist _ hr
  obtain ⟨_, ⟨k', h'⟩, _⟩ := W.put b t ht
  have : k' = k := by
    rcases h' with h' | h' | ⟨u, h'⟩ <;> rw [h'] at hk <;> exact Option.some.inj hk
  exact ⟨b, h1, this ▸ h', t, ht, h2⟩

/-- **C152**: a call puts its value into the map in one step. -/
theorem rwmap_put_once {c : Clk K} (hx : CExec eqv prog h s c) {b t t' : Nat} (h1 : c.put b t) (h2 : c.put b t') : t = t' ∧ t < c.n := by
  obtain ⟨ek, W⟩ := hx.wk
  exact ⟨W.once b t t' h1 h2, (W.put b t h1).2.2⟩

/-! ## C153: all writes -/

/-- **C153**: a call on `k` that returns knows, for every write of `k` made before its invocation, about that write or a later one. -/
theorem rwmap_write_sync {c : Clk K} (hx : CExec eqv prog h s c) {r : Res K V} (hr : .ret i r ∈ h) (hk : (prog i).key? = some k) {t0 : Nat}
    (h0 : c.wr k t0) (h1 : t0 < c.inv i) : ∃ t, t0 ≤ t ∧ c.wr k t ∧ c.call i t := by
  obtain ⟨ek, W⟩ := hx.wk
  obtain ⟨_, H⟩ := W.hist _ hr
  unfold ResOk at H
  cases hop : prog i <;> rw [hop] at hk <;> first | (cases hk; done) | (cases hk; simp only [hop] at H; exact H.1 t0 h0 h1)

/-- **C153**: a Range call that is not stopped knows that of all keys. -/
theorem rwmap_range_sync {c : Clk K} (hx : CExec eqv prog h s c) {acc : List (K × V)} (hr : .ret i (.visited acc false) ∈ h) (hop : prog i = .range)
    {t0 : Nat} (h0 : c.wr k t0) (h1 : t0 < c.inv i) : ∃ t, t0 ≤ t ∧ c.wr k t ∧ c.call i t := by
  obtain ⟨ek, W⟩ := hx.wk
  obtain ⟨_, H⟩ := W.hist _ hr
  simp only [ResOk, hop] at H
  exact H acc false rfl rfl k t0 h0 h1

/-- **C153**: in particular, if nobody has written `k` since, the call knows about the last write. -/
theorem rwmap_last_write_sync {c : Clk K} (hx : CExec eqv prog h s c) {r : Res K V} (hr : .ret i r ∈ h) (hk : (prog i).key? = some k) {t0 : Nat}
    (h0 : c.wr k t0) (h1 : t0 < c.inv i) (hl : ∀ t, c.wr k t → t ≤ t0) : c.call i t0 := by
  obtain ⟨t, h2, h3, h4⟩ := rwmap_write_sync hx hr hk h0 h1
  have := hl t h3
  obtain rfl : t = t0 := by omega
  exact h4

/-! ## A computable copy, for examples -/

/-- `Clk` with lists. -/
structure LClk where
  n : Nat
  call : List (Nat × List Nat)
  loc : List (Loc × List Nat)
  inv : List (Nat × Nat)
  chg : List (Nat × Nat)

def lget {A : Type} [DecidableEq A] (l : List (A × List Nat)) (a : A) : List Nat := (aget l a).getD []

def lunion (a b : List Nat) : List Nat := a ++ b.filter fun x => !a.contains x

def LClk.me (prog : Nat → Op Nat Nat) (s : State Nat Nat) (i : Nat) (c : LClk) : List Nat :=
  (acqs prog s i).foldl (fun a l => lunion a (lget c.loc l)) (c.n :: lget c.call i)

/-- As `Clk.next`; of the writes only those that change what the map has for 7. -/
def LClk.next (prog : Nat → Op Nat Nat) (s s' : State Nat Nat) (i : Nat) (c : LClk) : LClk :=
  { n := c.n + 1
    call := aput c.call i (c.me prog s i)
    loc := (rels prog s i).foldl (fun l x => aput l x (c.me prog s i)) c.loc
    inv := if (s.pc i).isIdle = true then aput c.inv i c.n else c.inv
    chg := if content s'.sh 7 ≠ content s.sh 7 then (7, c.n) :: c.chg else c.chg }

def LClk.Rel (l : LClk) (c : Clk Nat) : Prop :=
  l.n = c.n ∧ (∀ i t, t ∈ lget l.call i ↔ c.call i t) ∧ (∀ x t, t ∈ lget l.loc x ↔ c.loc x t) ∧ (∀ i, (aget l.inv i).getD 0 = c.inv i) ∧
  ∀ t, (7, t) ∈ l.chg ↔ c.chg 7 t

theorem mem_lunion {a b : List Nat} {x : Nat} : x ∈ lunion a b ↔ x ∈ a ∨ x ∈ b := by
  simp only [lunion, List.mem_append, List.mem_filter, List.contains_eq_mem, Bool.not_eq_true', decide_eq_false_iff_not]
  by_cases h : x ∈ a <;> simp [h]

theorem mem_foldl_lunion {f : Loc → List Nat} {x : Nat} : ∀ (ls : List Loc) (a : List Nat),
    x ∈ ls.foldl (fun a l => lunion a (f l)) a ↔ x ∈ a ∨ ∃ l ∈ ls, x ∈ f l
  | [], a => by simp
  | l :: ls, a => by
    simp only [List.foldl_cons, mem_foldl_lunion ls, mem_lunion, List.mem_cons, exists_eq_or_imp]
    exact or_assoc

theorem lget_foldl {x : Loc} {m : List Nat} : ∀ (ls : List Loc) (l : List (Loc × List Nat)),
    lget (ls.foldl (fun l x => aput l x m) l) x = if x ∈ ls then m else lget l x
  | [], l => by simp
  | y :: ls, l => by
    simp only [List.foldl_cons, lget_foldl ls, List.mem_cons]
    by_cases h : x ∈ ls
    · simp [h]
    · by_cases h' : x = y
      · subst h'; simp [h, lget, aget_aput]
      · simp [h, h', lget, aget_aput, Ne.symm h']

theorem LClk.Rel.next {prog : Nat → Op Nat Nat} {s s' : State Nat Nat} {l : LClk} {c : Clk Nat} (R : l.Rel c) :
    (l.next prog s s' i).Rel (c.next prog s s' i) := by
  obtain ⟨h1, h2, h3, h4, h5⟩ := R
  have hme : ∀ t, t ∈ l.me prog s i ↔ c.me prog s i t := by
    intro t
    simp only [LClk.me, mem_foldl_lunion, List.mem_cons, h1, h2, h3, Clk.me]
    constructor
    · rintro ((h | h) | h)
      · exact Or.inr (Or.inl h)
      · exact Or.inl h
      · exact Or.inr (Or.inr h)
    · rintro (h | h | h)
      · exact Or.inl (Or.inr h)
      · exact Or.inl (Or.inl h)
      · exact Or.inr h
  refine ⟨by simp [LClk.next, Clk.next, h1], fun j t => ?_, fun x t => ?_, fun j => ?_, fun t => ?_⟩
  · simp only [LClk.next, Clk.next, lget, aget_aput]
    by_cases h : j = i
    · subst h; simp [hme]
    · simp only [if_neg h, if_neg (Ne.symm h)]; exact h2 j t
  · simp only [LClk.next, Clk.next, lget_foldl]
    split
    · exact hme t
    · exact h3 x t
  · simp only [LClk.next, Clk.next]
    by_cases hi : (s.pc i).isIdle = true
    · simp only [hi, if_true, and_true, aget_aput]
      by_cases h : j = i
      · subst h; simp [h1]
      · simp only [if_neg h, if_neg (Ne.symm h)]; exact h4 j
    · simp only [hi]; simpa using h4 j
  · simp only [LClk.next, Clk.next]
    split
    · next hc => simp [h5, h1, hc, or_comm]
    · next hc => simp only [h5]; constructor
                 · exact Or.inl
                 · rintro (h | ⟨_, h⟩)
                   · exact h
                   · exact absurd h hc

/-- A schedule, with the order of the steps. -/
def csched (prog : Nat → Op Nat Nat) : List Nat → List (Ev Nat Nat) → State Nat Nat → LClk → Option (List (Ev Nat Nat) × State Nat Nat × LClk)
  | [], h, s, l => some (h, s, l)
  | i :: is, h, s, l => match next (fun a b => some (a == b)) prog id true s i with
    | some s' => csched prog is (h ++ event prog s i) s' (l.next prog s s' i)
    | none => none

theorem csched_exec {prog : Nat → Op Nat Nat} : ∀ (is : List Nat) {h1 h2 : List (Ev Nat Nat)} {s1 s2 : State Nat Nat} {l1 l2 : LClk} {c1 : Clk Nat},
    CExec (fun a b => some (a == b)) prog h1 s1 c1 → l1.Rel c1 → csched prog is h1 s1 l1 = some (h2, s2, l2) →
    ∃ c2, CExec (fun a b => some (a == b)) prog h2 s2 c2 ∧ l2.Rel c2
  | [], _, _, _, _, _, _, _, hx, R, he => by cases he; exact ⟨_, hx, R⟩
  | i :: is, _, _, _, _, _, _, _, hx, R, he => by
    simp only [csched] at he
    split at he
    next s' hn => exact csched_exec is (hx.step (fun _ => .refl _) hn) R.next he
    next => cases he

def LClk.init : LClk := { n := 0, call := [], loc := [], inv := [], chg := [] }

theorem LClk.init_rel : LClk.init.Rel Clk.init := by
  refine ⟨rfl, ?_, ?_, ?_, ?_⟩ <;> intros <;> simp [LClk.init, Clk.init, lget, aget]

/-- 7 is stored and 8 is stored; CompareAndDelete(7) finds the entry in `dirty`, unlocks, and makes it nil; LoadAndDelete(7) removes that entry from `dirty`, and
promotes `dirty`; Load(7) does not find 7. -/
def exHB : List Nat := rep 10 0 ++ rep 7 3 ++ rep 9 9 ++ rep 8 2 ++ rep 3 1

/-- Call `i` has returned `o`; these are the steps that changed what the map has for 7, when `i` was invoked, whether `i` knows about `t1` and about `t2`. -/
def hbCheck (i : Nat) (o : Option Nat) (chg : List (Nat × Nat)) (inv t1 t2 : Nat) (b1 b2 : Bool)
    (x : Option (List (Ev Nat Nat) × State Nat Nat × LClk)) : Bool :=
  match x with
  | some (h, _, l) =>
    h.any (fun e => match e with
      | .ret j (.opt v) => j == i && v == o
      | _ => false) &&
    l.chg == chg && (aget l.inv i).getD 0 == inv && (lget l.call i).contains t1 == b1 && (lget l.call i).contains t2 == b2
  | none => false

theorem hbCheck_exec {is : List Nat} {o : Option Nat} {chg : List (Nat × Nat)} {inv t1 t2 : Nat} {b1 b2 : Bool}
    (H : hbCheck i o chg inv t1 t2 b1 b2 (csched exProg is [] State.init LClk.init) = true) :
    ∃ h s c, CExec (fun a b => some (a == b)) exProg h s c ∧ .ret i (.opt o) ∈ h ∧ (∀ t, c.chg 7 t ↔ (7, t) ∈ chg) ∧ c.inv i = inv ∧
      (c.call i t1 ↔ b1 = true) ∧ (c.call i t2 ↔ b2 = true) := by
  unfold hbCheck at H
  split at H
  · next h s l he =>
    obtain ⟨c, hx, R⟩ := csched_exec is .init LClk.init_rel he
    simp only [Bool.and_eq_true, beq_iff_eq, List.any_eq_true] at H
    obtain ⟨⟨⟨⟨⟨e, he, h1⟩, h2⟩, h3⟩, h4⟩, h5⟩ := H
    refine ⟨h, s, c, hx, ?_, fun t => by rw [← h2]; exact (R.2.2.2.2 t).symm, by rw [← R.2.2.2.1, h3], ?_, ?_⟩
    · split at h1
      · simp only [Bool.and_eq_true, beq_iff_eq] at h1; obtain ⟨rfl, rfl⟩ := h1; exact he
      · cases h1
    · rw [← R.2.1, ← h4]; simp
    · rw [← R.2.1, ← h5]; simp
  · cases H

/-- C152: Load(7) returns 1 and knows about the step with which Store(7, 1) put it there, but not about that call's return. -/
example : ∃ h s c, CExec (fun a b => some (a == b)) exProg h s c ∧ .ret 1 (.opt (some 1)) ∈ h ∧ (∀ t, c.chg 7 t ↔ t = 6) ∧ c.call 1 6 ∧ ¬ c.call 1 9 := by
  obtain ⟨h, s, c, hx, hr, hc, _, h1, h2⟩ :=
    hbCheck_exec (i := 1) (is := rep 10 0 ++ rep 8 1) (o := some 1) (chg := [(7, 6)]) (inv := 10) (t1 := 6) (t2 := 9) (b1 := true) (b2 := false) (by decide +kernel)
  exact ⟨h, s, c, hx, hr, fun t => by rw [hc]; simp, h1.2 rfl, by simpa using h2⟩

/-- C153 is false if only those writes count that change what is in the map: when CompareAndDelete(7) has emptied the entry and LoadAndDelete(7) has deleted
the entry, Load(7) finds nothing, but the step with which CompareAndDelete emptied the entry does not happen before that. -/
theorem rwmap_change_sync_false : ¬ ∀ (prog : Nat → Op Nat Nat) (h : List (Ev Nat Nat)) (s : State Nat Nat) (c : Clk Nat) (i : Nat) (r : Res Nat Nat) (k t0 : Nat),
    CExec (fun a b => some (a == b)) prog h s c → .ret i r ∈ h → (prog i).key? = some k → c.chg k t0 → t0 < c.inv i → ∃ t, t0 ≤ t ∧ c.chg k t ∧ c.call i t := by
  intro H
  obtain ⟨h, s, c, hx, hr, hc, hi, h1, h2⟩ :=
    hbCheck_exec (i := 1) (is := exHB) (o := none) (chg := [(7, 23), (7, 6)]) (inv := 34) (t1 := 6) (t2 := 23) (b1 := true) (b2 := false) (by decide +kernel)
  obtain ⟨t, ht, hw, hk⟩ := H exProg h s c 1 _ 7 23 hx hr rfl ((hc 23).2 (by simp)) (by omega)
  have := (hc t).1 hw
  simp only [List.mem_cons, Prod.mk.injEq, true_and, List.not_mem_nil, or_false] at this
  rcases this with rfl | rfl
  · exact absurd (h2.1 hk) (by simp)
  · omega

/-- C153: in that execution Load(7), which returns nothing, knows about some write of 7 after step 23, which is the deletion of the entry. -/
example : ∃ h s c, CExec (fun a b => some (a == b)) exProg h s c ∧ .ret 1 (.opt none) ∈ h ∧ ∃ t, 23 < t ∧ c.wr 7 t ∧ c.call 1 t := by
  obtain ⟨h, s, c, hx, hr, hc, hi, _, h2⟩ :=
    hbCheck_exec (i := 1) (is := exHB) (o := none) (chg := [(7, 23), (7, 6)]) (inv := 34) (t1 := 6) (t2 := 23) (b1 := true) (b2 := false) (by decide +kernel)
  have hw : ∀ {h s c}, CExec (fun a b => some (a == b)) exProg h s c → ∀ k t, c.chg k t → c.wr k t := by
    intro h s c hx
    induction hx with
    | init => nofun
    | step _ _ _ ih => rintro k t (h | ⟨h1, h2⟩); exacts [Or.inl (ih k t h), Or.inr ⟨h1, Or.inl h2⟩]
  obtain ⟨t, ht, h3, h4⟩ := rwmap_write_sync hx hr (k := 7) rfl (hw hx 7 23 ((hc 23).2 (by simp))) (by omega)
  refine ⟨h, s, c, hx, hr, t, ?_, h3, h4⟩
  rcases Nat.lt_or_eq_of_le ht with h | rfl
  · exact h
  · exact absurd (h2.1 h4) (by simp)

end Verif.RWMap
