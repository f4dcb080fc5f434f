import Verif.RWMap.Handover
import Verif.RWMap.Hash
import Verif.SyncCache.Float
import Verif.SyncCache.SysEnds
/-!
# `synccache` with keys that cannot be hashed (C161)

The cache over the steps of `RWMap` as in `Sys.lean`, the map with keys that cannot be hashed as in `RWMap/Hash.lean` (C146).  A call of the map that panics
makes the call of the cache panic, which has no deferred functions.  `Store` and `LoadOrStore` make their entry before (synccache.go lines 78, 95).
-/
namespace Verif.SyncCache.Hash
open RWMap (hnext HExec)
open Verif.Refresh (get_snoc get_lt get_keep get_new)
open Verif.SyncCache.Float (locs locs_loc locs_map mem_maps cur_loc)
variable {K V : Type}

/-! ## The machine -/

/-- The key of a call of the cache. -/
def key? : Op K V → Option K
  | .store k _ _ | .load k | .loadOrStore k _ _ | .delete k | .loadAndDelete k | .compareAndDelete k _ | .compareValueAndDelete k _ => some k
  | _ => none

/-- The call has a key that cannot be hashed; `ok`: which ones can. -/
def bad (ok : K → Bool) (op : Op K V) : Bool :=
  match key? op with
  | some k => !ok k
  | none => false

variable [DecidableEq K]

/-- As `Client.sync`; if the call of the map panics, so does the call of the cache (synccache.go lines 78, 82, 95, 110, 116, 133 are reached with no deferred
function in place, also from lines 71, 152, 162, inside `RWMap.Range`). -/
def hsync (c : Cfg V) (prog : Nat → RWMap.Op K Nat) (s : Client K V) (i : Nat) (e : RWMap.Ev K Nat) : Option (Client K V) :=
  match e with
  | .ret n .panicked => if s.wait i = some n then some ⟨s.st.go i (.done .panicked), Function.update s.wait i none⟩ else none
  | e => s.sync c prog i e

/-- Executions of the whole, as `Sys`, with keys of which only some (`ok`) can be hashed. -/
inductive HSys (ok : K → Bool) (c : Cfg V) (prog : Nat → RWMap.Op K Nat) : List (Item K V) → Client K V → RWMap.State K Nat → Prop where
  | init : HSys ok c prog [] .init .init
  | loc {T s m i inp s' e} : HSys ok c prog T s m → s.loc c i inp = some (s', e) → HSys ok c prog (T ++ [.loc e]) s' m
  | tau {T s m n ord m'} : HSys ok c prog T s m → (∀ l, (ord l).Perm l) → hnext ok ptrEq prog ord true m n = some m' →
      RWMap.event prog m n = [] → HSys ok c prog T s m'
  | sync {T s m n ord m' e i s'} : HSys ok c prog T s m → (∀ l, (ord l).Perm l) → hnext ok ptrEq prog ord true m n = some m' →
      RWMap.event prog m n = [e] → hsync c prog s i e = some s' → HSys ok c prog (T ++ [.map e]) s' m'

variable {ok : K → Bool} {c : Cfg V} {prog : Nat → RWMap.Op K Nat} {T A B : List (Item K V)} {s s' t t' : Client K V} {m m' tm : RWMap.State K Nat}
  {i j n p a : Nat} {v : V} {op : Op K V} {k : K} {L : List (Ev K V)} {e : Ev K V}

/-! ## The same without the calls that panic -/

/-- What a call is replaced by: nothing, or `NewEntry`. -/
def instead : Op K V → Option (Op K V)
  | .store _ v d | .loadOrStore _ v d => some (.newEntry v d)
  | _ => none

/-- What thread `i` is doing: a call to be kept, one to be left out, one to be replaced by `NewEntry` that has made entry `a`. -/
inductive Mode where
  | usual
  | gone
  | made (a : Nat)

def hideStep (ok : K → Bool) (prog : Nat → RWMap.Op K Nat) (x : (Nat → Mode) × List (Item K V)) : Item K V → (Nat → Mode) × List (Item K V)
  | .loc (.call i op) =>
    if bad ok op then
      match instead op with
      | some op' => (Function.update x.1 i (.made 0), x.2 ++ [.loc (.call i op')])
      | none => (Function.update x.1 i .gone, x.2)
    else (x.1, x.2 ++ [.loc (.call i op)])
  | .loc (.mk i a v now d) =>
    match x.1 i with
    | .made _ => (Function.update x.1 i (.made a), x.2 ++ [.loc (.mk i a v now d)])
    | _ => (x.1, x.2 ++ [.loc (.mk i a v now d)])
  | .loc (.ret i r) =>
    match x.1 i with
    | .usual => (x.1, x.2 ++ [.loc (.ret i r)])
    | .gone => (Function.update x.1 i .usual, x.2)
    | .made a => (Function.update x.1 i .usual, x.2 ++ [.loc (.ret i (.ptr a))])
  | .loc e => (x.1, x.2 ++ [.loc e])
  | .map e => if (prog e.call).bad ok then x else (x.1, x.2 ++ [.map e])

def hideAll (ok : K → Bool) (prog : Nat → RWMap.Op K Nat) (T : List (Item K V)) : (Nat → Mode) × List (Item K V) :=
  T.foldl (hideStep ok prog) (fun _ => .usual, [])

/-- The execution without the calls whose keys cannot be hashed: those of `Store` and `LoadOrStore` are replaced by `NewEntry`, which returns the entry
they made, the others are left out. -/
def hide (ok : K → Bool) (prog : Nat → RWMap.Op K Nat) (T : List (Item K V)) : List (Item K V) := (hideAll ok prog T).2

omit [DecidableEq K] in
theorem hideAll_snoc (x : Item K V) : hideAll ok prog (T ++ [x]) = hideStep ok prog (hideAll ok prog T) x := by
  simp [hideAll, List.foldl_append]

/-! ## Keys -/

/-- The keys in what follows a removal. -/
def aftOk (ok : K → Bool) : After K V → Prop
  | .los k _ _ _ => ok k = true
  | _ => True

/-- The keys a thread works with can be hashed. -/
def keysOk (ok : K → Bool) : PC K V → Prop
  | .stMk k _ _ | .stPut k _ | .ldGet k _ | .chk k _ _ | .chkExp k _ _ _ | .losMk k _ _ | .losTry k _ _ _ | .delTry k | .ladTry k | .cvEq k _ _ | .tChk k _ _ _
  | .fCall k _ _ => ok k = true
  | .cad k _ aft => ok k = true ∧ aftOk ok aft
  | .cbCall _ aft | .cbRun aft => aftOk ok aft
  | _ => True

omit [DecidableEq K] in
theorem keys_mapOp {pc : PC K V} {mop : RWMap.Op K Nat} (h : pc.mapOp c = some mop) (hk : keysOk ok pc) : mop.bad ok = false := by
  cases pc <;> simp only [PC.mapOp, reduceCtorEq, Option.some.injEq] at h
  case clr => split at h <;> cases h; rfl
  all_goals subst h
  all_goals first | rfl | simp_all [keysOk, RWMap.Op.bad, RWMap.Op.key?]

omit [DecidableEq K] in
theorem keys_next {aft : After K V} (h : aftOk ok aft) (b : Bool) : keysOk ok (aft.next b) := by
  cases aft with
  | los k v d a => cases b <;> first | exact h | trivial
  | lad live => cases live <;> trivial
  | _ => trivial

omit [DecidableEq K] in
theorem keys_afterDel {aft : After K V} (h : aftOk ok aft) : keysOk ok (afterDel c a aft) := by
  unfold afterDel; split
  · exact h
  · exact keys_next h true

omit [DecidableEq K] in
theorem keys_live {st : Site K V} (h : ok k = true) : keysOk ok (st.live c k a) := by
  cases st <;> first | trivial | exact h | exact keys_afterDel trivial

omit [DecidableEq K] in
theorem keys_dead {st : Site K V} (h : ok k = true) : keysOk ok (st.dead c k a) := by
  cases st <;> first | trivial | exact ⟨h, trivial⟩ | exact ⟨h, h⟩ | exact keys_afterDel trivial

omit [DecidableEq K] in
theorem keys_cont {pc : PC K V} {r : RWMap.Res K Nat} (h : keysOk ok pc) : keysOk ok (pc.cont c r) := by
  unfold PC.cont
  split <;> first | trivial | exact h | exact keys_afterDel trivial | exact keys_afterDel h.2 | exact keys_next h.2 _

omit [DecidableEq K] in
theorem keys_visit {it : Iter K} (h : ok k = true) : keysOk (V := V) ok (it.visit k a) := by
  unfold Iter.visit
  split <;> first | exact h | exact ⟨h, trivial⟩

omit [DecidableEq K] in
theorem keys_enter (h : bad ok op = false) : keysOk ok (enter op) := by
  cases op <;> simp_all [bad, key?, enter, keysOk, aftOk]

theorem keys_step {st st' : State K V} {inp : In K V} (h : step c [] st i inp = some (st', e)) (hk : keysOk ok (st.pc i))
    (hm : (st.pc i).mapOp c = none) (hit : (st.pc i).isIter = false) (hb : ∀ op, e = .call i op → bad ok op = false) : keysOk ok (st'.pc i) := by
  unfold step at h
  split at h <;> first | (cases h; done) | skip
  all_goals rename_i hpc
  all_goals rw [hpc] at hk hm hit
  all_goals simp only [PC.mapOp, PC.isIter, reduceCtorEq] at hm hit
  all_goals first
    | (cases h; simp only [State.go, Function.update_self]; first | trivial | exact hk | exact keys_next hk _; done)
    | (split at h <;> cases h <;> simp only [State.go, Function.update_self] <;> first | trivial | exact hk; done)
    | skip
  · cases h
    simp only [State.go, Function.update_self]
    exact keys_enter (hb _ rfl)
  · split at h <;> cases h <;> simp only [State.go, Function.update_self]
    · trivial
    · split
      · exact keys_dead hk
      · exact keys_live hk
  · cases h
    simp only [State.go, Function.update_self]
    split
    · exact keys_next hk true
    · trivial
  · split at h <;> cases h <;> simp only [State.go, Function.update_self]
    · trivial
    · split <;> first | trivial | exact ⟨hk, trivial⟩
  · split at h <;> cases h <;> simp only [State.go, Function.update_self]
    · trivial
    · split <;> first | trivial | exact ⟨hk, trivial⟩

/-- A step depends on the thread's own position only. -/
theorem step_same {st st' : State K V} {inp : In K V} {f : Nat → PC K V} (hf : f i = st.pc i) (h : step c [] st i inp = some (st', e)) :
    step c [] { st with pc := f } i inp = some ({ st' with pc := Function.update f i (st'.pc i) }, e) := by
  unfold step at h ⊢
  simp only [hf]
  split at h <;> first | (cases h; done) | skip
  all_goals rename_i hpc
  all_goals try simp only [hpc]
  all_goals first
    | (cases h; simp [State.go, State.mk_]; done)
    | (split at h <;> first | (cases h; done) | (cases h; simp_all [State.go, State.mk_]; done) | skip)
  rename_i hif
  rw [if_pos hif]
  cases h
  simp [State.go]

/-! ## The simulation -/

/-- In front of a call of the map with a key that cannot be hashed, or waiting for it. -/
def Bad (ok : K → Bool) (c : Cfg V) (prog : Nat → RWMap.Op K Nat) (pc : PC K V) (w : Option Nat) : Prop :=
  ∃ mop, pc.mapOp c = some mop ∧ mop.bad ok = true ∧ ∀ n, w = some n → (prog n).bad ok = true

/-- A thread and the one without the calls that panic. -/
def Thr (ok : K → Bool) (c : Cfg V) (prog : Nat → RWMap.Op K Nat) (spc : PC K V) (sw : Option Nat) (tpc : PC K V) (tw : Option Nat) : Mode → Prop
  | .usual => tpc = spc ∧ tw = sw ∧ keysOk ok spc ∧ ∀ n, sw = some n → (prog n).bad ok = false
  | .gone => tpc = .idle ∧ tw = none ∧ (Bad ok c prog spc sw ∨ spc = .done .panicked ∧ sw = none)
  | .made a => tw = none ∧ ((∃ k v d, (spc = .stMk k v d ∨ spc = .losMk k v d) ∧ ok k = false ∧ sw = none ∧ tpc = .neMk v d) ∨
      tpc = .done (.ptr a) ∧ (Bad ok c prog spc sw ∨ spc = .done .panicked ∧ sw = none))

structure HInv (ok : K → Bool) (c : Cfg V) (prog : Nat → RWMap.Op K Nat) (T : List (Item K V)) (s : Client K V) (m : RWMap.State K Nat) (t : Client K V)
    (tm : RWMap.State K Nat) : Prop where
  sys : Sys c prog (hide ok prog T) t tm
  sim : RWMap.Sim ok prog (T.filterMap Item.map?) ((hide ok prog T).filterMap Item.map?) m tm
  nolen : ∀ n, prog n = .len → m.pc n = .idle
  thr : ∀ i, Thr ok c prog (s.st.pc i) (s.wait i) (t.st.pc i) (t.wait i) ((hideAll ok prog T).1 i)
  st : t.st = { s.st with pc := t.st.pc }

omit [DecidableEq K] in
theorem hideStep_usual {x : (Nat → Mode) × List (Item K V)} (h : x.1 e.tid = .usual) (hb : ∀ op, e = .call e.tid op → bad ok op = false) :
    hideStep ok prog x (.loc e) = (x.1, x.2 ++ [.loc e]) := by
  cases e <;> simp_all [hideStep, Ev.tid]

omit [DecidableEq K] in
theorem thr_other {x : Nat → Mode} {f : Nat → PC K V} {g : Nat → Option Nat} {f' : Nat → PC K V} {g' : Nat → Option Nat} {pc pc' : PC K V} {w w' : Option Nat}
    {md : Mode} (H : ∀ j, Thr ok c prog (f j) (g j) (f' j) (g' j) (x j)) (hi : Thr ok c prog pc w pc' w' md) (j : Nat) :
    Thr ok c prog (Function.update f i pc j) (Function.update g i w j) (Function.update f' i pc' j) (Function.update g' i w' j) (Function.update x i md j) := by
  by_cases hj : j = i
  · subst hj; simpa using hi
  · simpa [hj] using H j

/-- The three ways a step of the cache's own goes on. -/
theorem HInv.keep (H : HInv ok c prog T s m t tm) {md : Mode} {pc : PC K V} {st' : State K V} (hs' : s'.st = { st' with pc := Function.update s.st.pc i pc })
    (hw : s'.wait = s.wait) (hA : hideAll ok prog (T ++ [.loc e]) = (Function.update (hideAll ok prog T).1 i md, hide ok prog T))
    (hst : { st' with pc := s.st.pc } = s.st) (ht : Thr ok c prog pc (s.wait i) (t.st.pc i) (t.wait i) md) : HInv ok c prog (T ++ [.loc e]) s' m t tm where
  sys := by unfold hide; rw [hA]; exact H.sys
  sim := by unfold hide; rw [hA]; exact (show List.filterMap Item.map? (T ++ [.loc e]) = _ from calls_loc T e) ▸ H.sim
  nolen := H.nolen
  thr := by
    intro j
    have := thr_other (i := i) H.thr ht j
    rw [Function.update_eq_self, Function.update_eq_self, Function.update_eq_self] at this
    rw [hA, hs', hw]
    exact this
  st := by
    rw [hs', H.st, ← hst]

theorem HInv.both (H : HInv ok c prog T s m t tm) {md : Mode} {pc : PC K V} {st' : State K V} {e' : Ev K V} {inp : In K V}
    (hs' : s'.st = { st' with pc := Function.update s.st.pc i pc })
    (hw : s'.wait = s.wait) (hA : hideAll ok prog (T ++ [.loc e]) = (Function.update (hideAll ok prog T).1 i md, hide ok prog T ++ [.loc e']))
    {pc' : PC K V} (hl : t.loc c i inp = some (t', e')) (ht' : t'.st = { st' with pc := Function.update t.st.pc i pc' }) (hw' : t'.wait = t.wait)
    (ht : Thr ok c prog pc (s.wait i) pc' (t.wait i) md) : HInv ok c prog (T ++ [.loc e]) s' m t' tm where
  sys := by unfold hide; rw [hA]; exact H.sys.loc hl
  sim := by
    unfold hide
    rw [hA]
    exact (show List.filterMap Item.map? (T ++ [.loc e]) = _ from calls_loc T e) ▸
      (show List.filterMap Item.map? (hide ok prog T ++ [.loc e']) = _ from calls_loc (hide ok prog T) e') ▸ H.sim
  nolen := H.nolen
  thr := by
    intro j
    have := thr_other (i := i) H.thr ht j
    rw [Function.update_eq_self, Function.update_eq_self] at this
    rw [hA, hs', hw, ht', hw']
    exact this
  st := by rw [hs', ht']

theorem step_call {st st' : State K V} {inp : In K V} (h : step c [] st i inp = some (st', .call j op)) : st.pc i = .idle ∧ st' = st.go i (enter op) := by
  unfold step at h
  split at h <;> first | (cases h; done) | skip
  · rename_i hpc; cases h; exact ⟨hpc, rfl⟩
  all_goals (repeat' split at h)
  all_goals cases h

theorem loc_of {inp : In K V} {st' : State K V} (hw : t.wait i = none) (hm : (t.st.pc i).mapOp c = none) (hit : (t.st.pc i).isIter = false)
    (h : step c [] t.st i inp = some (st', e)) : t.loc c i inp = some (⟨st', t.wait⟩, e) := by
  unfold Client.loc
  rw [if_pos ⟨hw, hm, hit⟩, h]
  rfl

theorem HInv.loc {inp : In K V} (H : HInv ok c prog T s m t tm) (hl : s.loc c i inp = some (s', e)) : ∃ t', HInv ok c prog (T ++ [.loc e]) s' m t' tm := by
  obtain ⟨hw, hm, hit, hs, hw', hother, -⟩ := loc_cases hl
  have htid := step_tid hs
  have hi := H.thr i
  have hpc' : s'.st.pc = Function.update s.st.pc i (s'.st.pc i) := by
    funext j
    by_cases hj : j = i
    · subst hj; simp
    · simp [hj, hother j hj]
  have hstS : s'.st = { s'.st with pc := Function.update s.st.pc i (s'.st.pc i) } := by rw [← hpc']
  have hsame : ∀ x : (Nat → Mode) × List (Item K V), x.1 i = .usual → Function.update x.1 i .usual = x.1 := fun x hx => by
    rw [← hx, Function.update_eq_self]
  rw [hw] at hi
  cases hmd : (hideAll ok prog T).1 i with
  | usual =>
    rw [hmd] at hi
    obtain ⟨h1, h2, h3, -⟩ := hi
    by_cases hb : ∃ op, e = .call i op ∧ bad ok op = true
    · obtain ⟨op, rfl, hb⟩ := hb
      obtain ⟨hid, hst'⟩ := step_call hs
      have hpe : s'.st.pc i = enter op := by rw [hst']; simp [State.go]
      cases hin : instead op with
      | none =>
        refine ⟨t, H.keep hstS hw' (md := .gone) ?_ (by rw [hst']; rfl) ?_⟩
        · rw [hideAll_snoc]; simp only [hideStep, hb, if_true, hin]; rfl
        · rw [hpe, hw]
          refine ⟨h1.trans hid, h2, .inl ?_⟩
          cases op <;> simp only [instead, reduceCtorEq] at hin <;> simp only [bad, key?, reduceCtorEq] at hb <;>
            exact ⟨_, rfl, hb, fun n hn => by cases hn⟩
      | some op' =>
        obtain ⟨k, v, d, hop, rfl⟩ : ∃ k v d, (op = .store k v d ∨ op = .loadOrStore k v d) ∧ op' = .newEntry v d := by
          cases op <;> simp only [instead, reduceCtorEq, Option.some.injEq] at hin <;> subst hin
          · exact ⟨_, _, _, .inl rfl, rfl⟩
          · exact ⟨_, _, _, .inr rfl, rfl⟩
        refine ⟨_, H.both hstS hw' (md := .made 0) (e' := .call i (.newEntry v d)) (inp := .call (.newEntry v d)) (pc' := .neMk v d) ?_
          (loc_of (st' := t.st.go i (.neMk v d)) h2 (h1 ▸ hm) (h1 ▸ hit) (by simp only [step, h1, hid]; rfl)) ?_ rfl ?_⟩
        · rw [hideAll_snoc]; simp only [hideStep, hb, if_true, hin]; rfl
        · show t.st.go i _ = _
          rw [hst', H.st]; rfl
        · rw [hpe, hw]
          refine ⟨h2, .inl ⟨k, v, d, ?_, ?_, rfl, rfl⟩⟩
          · rcases hop with rfl | rfl
            · exact .inl rfl
            · exact .inr rfl
          · rcases hop with rfl | rfl <;> simpa [bad, key?] using hb
    · have hb' : ∀ op, e = .call i op → bad ok op = false := fun op he => by
        by_contra hc
        exact hb ⟨op, he, by simpa using hc⟩
      have hh : hideAll ok prog (T ++ [.loc e]) = (Function.update (hideAll ok prog T).1 i .usual, hide ok prog T ++ [.loc e]) := by
        rw [hideAll_snoc, hideStep_usual (by rw [htid]; exact hmd) (by rw [htid]; exact hb'), hsame _ hmd]
        rfl
      have hstep := step_same (f := t.st.pc) h1 hs
      rw [← H.st] at hstep
      exact ⟨_, H.both hstS hw' hh (loc_of h2 (h1 ▸ hm) (h1 ▸ hit) hstep) rfl rfl
        ⟨rfl, h2.trans hw.symm, keys_step hs h3 hm hit hb', fun n hn => by rw [hw] at hn; cases hn⟩⟩
  | gone =>
    rw [hmd] at hi
    obtain ⟨h1, h2, ⟨mop, h3, -⟩ | ⟨h3, -⟩⟩ := hi
    · rw [hm] at h3; cases h3
    · simp only [step, h3] at hs
      cases inp <;> simp only [reduceCtorEq, Option.some.injEq, Prod.mk.injEq] at hs
      obtain ⟨hst', rfl⟩ := hs
      refine ⟨t, H.keep hstS hw' (md := .usual) ?_ (by rw [← hst']; rfl) ?_⟩
      · rw [hideAll_snoc]; simp only [hideStep, hmd]; rfl
      · rw [← hst', hw]
        simp only [State.go, Function.update_self]
        exact ⟨h1, h2, trivial, fun n hn => by cases hn⟩
  | made a =>
    rw [hmd] at hi
    obtain ⟨h2, ⟨k, v, d, h3, h4, -, h5⟩ | ⟨h1, ⟨mop, h3, -⟩ | ⟨h3, -⟩⟩⟩ := hi
    · have key : ∃ now, inp = .time now ∧ e = .mk i s.st.ents.length v now d ∧ ∃ pc, s'.st = (s.st.mk_ v now d).go i pc ∧
          Bad ok c prog pc none := by
        rcases h3 with h3 | h3 <;> simp only [step, h3] at hs <;> cases inp <;>
          simp only [reduceCtorEq, Option.some.injEq, Prod.mk.injEq] at hs <;> obtain ⟨hst', rfl⟩ := hs <;>
          exact ⟨_, rfl, rfl, _, hst'.symm, _, rfl, by simp [RWMap.Op.bad, RWMap.Op.key?, h4], fun n hn => by cases hn⟩
      obtain ⟨now, rfl, rfl, pc, hst', hbad⟩ := key
      have hpe : s'.st.pc i = pc := by rw [hst']; simp [State.go]
      have hents : t.st.ents = s.st.ents := by rw [H.st]
      refine ⟨_, H.both hstS hw' (md := .made s.st.ents.length) (e' := .mk i s.st.ents.length v now d) (inp := .time now) (pc' := .done (.ptr s.st.ents.length)) ?_
        (loc_of (st' := (t.st.mk_ v now d).go i (.done (.ptr s.st.ents.length))) h2 (by rw [h5]; rfl) (by rw [h5]; rfl)
          (by simp only [step, h5, hents])) ?_ rfl ?_⟩
      · rw [hideAll_snoc]; simp only [hideStep, hmd]; rfl
      · show (t.st.mk_ v now d).go i _ = _
        rw [hst', H.st]; rfl
      · rw [hpe, hw]
        exact ⟨h2, .inr ⟨rfl, .inl hbad⟩⟩
    · rw [hm] at h3; cases h3
    · simp only [step, h3] at hs
      cases inp <;> simp only [reduceCtorEq, Option.some.injEq, Prod.mk.injEq] at hs
      obtain ⟨hst', rfl⟩ := hs
      refine ⟨_, H.both hstS hw' (md := .usual) (e' := .ret i (.ptr a)) (inp := .go) (pc' := .idle) ?_
        (loc_of (st' := t.st.go i .idle) h2 (by rw [h1]; rfl) (by rw [h1]; rfl) (by simp only [step, h1])) ?_ rfl ?_⟩
      · rw [hideAll_snoc]; simp only [hideStep, hmd]; rfl
      · show t.st.go i _ = _
        rw [← hst', H.st]; rfl
      · rw [← hst', hw]
        simp only [State.go, Function.update_self]
        exact ⟨rfl, h2, trivial, fun n hn => by cases hn⟩

/-- What a call of `Range` is given has been put in by a call with that key. -/
theorem visit_stored {h : List (RWMap.Ev K Nat)} (hx : RWMap.Exec ptrEq prog h m) (hv : .visit n k a ∈ h) : ∃ b, .inv b ∈ h ∧ (prog b).Stored k a := by
  obtain ⟨L, H, hvis, -⟩ := RWMap.rwmap_range hx
  have hvL : .visit n k a ∈ L := by
    rw [← H.1] at hv
    obtain ⟨y, hy, hye⟩ := List.mem_filterMap.1 hv
    cases y <;> cases hye
    exact hy
  obtain ⟨L1, L2, hL⟩ := List.append_of_mem hvL
  obtain ⟨M1, M2, rfl, -, he⟩ := hvis n k a L1 L2 hL
  obtain ⟨h1, h2⟩ := RWMap.own_spec (eqv := ptrEq) (prog := prog) k M1
  rw [he] at h1
  obtain ⟨⟨w, u⟩, ho, rfl⟩ := Option.map_eq_some_iff.1 h1.symm
  obtain ⟨X, Y, rfl, hp⟩ := h2 w u ho
  have hst := (RWMap.putAt_some hp).2.2
  have hin := (RWMap.eff_once H hst.key.2 (M := X) (M' := Y ++ (M2 ++ .visit n k u :: L2)) (by rw [hL]; simp)).1
  refine ⟨w, ?_, hst⟩
  rw [← H.1]
  exact List.mem_filterMap.2 ⟨.inv w, by rw [hL]; simp [hin], rfl⟩

theorem hnext_other {ord : List (K × Nat) → List (K × Nat)} (hn : hnext ok ptrEq prog ord true m n = some m') (hj : j ≠ n) : m'.pc j = m.pc j := by
  unfold hnext at hn
  have hnx : ∀ {m'}, RWMap.next ptrEq prog ord true m n = some m' → m'.pc j = m.pc j := fun {m'} h => by
    rw [RWMap.next_act] at h
    obtain ⟨r, -, rfl⟩ := Option.map_eq_some_iff.1 h
    simp [RWMap.State.goto, hj]
  split at hn
  · split at hn
    · cases hn; simp [RWMap.State.goto, hj]
    · exact hnx hn
  · exact hnx hn

/-- The map calls of threads that do as usual are those with keys that can be hashed. -/
theorem HInv.usual (H : HInv ok c prog T s m t tm) (hg : (prog n).bad ok = false)
    (h : (s.wait i = none ∧ (s.st.pc i).mapOp c = some (prog n)) ∨ s.wait i = some n ∨ (s.st.pc i).isIter = true) : (hideAll ok prog T).1 i = .usual := by
  have hi := H.thr i
  have hB : ¬ Bad ok c prog (s.st.pc i) (s.wait i) := by
    rintro ⟨mop, h1, h2, h3⟩
    rcases h with ⟨-, h⟩ | h | h
    · rw [h1] at h; cases h; rw [hg] at h2; cases h2
    · have := h3 n h; rw [hg] at this; cases this
    · cases hp : s.st.pc i <;> rw [hp] at h h1 <;> cases h; cases h1
  have hD : ¬ (s.st.pc i = .done .panicked ∧ s.wait i = none) := by
    rintro ⟨h1, h2⟩
    rcases h with ⟨-, h⟩ | h | h
    · rw [h1] at h; cases h
    · rw [h2] at h; cases h
    · rw [h1] at h; cases h
  cases hmd : (hideAll ok prog T).1 i with
  | usual => rfl
  | gone =>
    rw [hmd] at hi
    rcases hi.2.2 with h | h
    · exact absurd h hB
    · exact absurd h hD
  | made a =>
    rw [hmd] at hi
    rcases hi.2 with ⟨k, v, d, h1, -, h2, -⟩ | ⟨-, h | h⟩
    · rcases h with ⟨-, h⟩ | h | h
      · rcases h1 with h1 | h1 <;> rw [h1] at h <;> cases h
      · rw [h2] at h; cases h
      · rcases h1 with h1 | h1 <;> rw [h1] at h <;> cases h
    · exact absurd h hB
    · exact absurd h hD

/-- Threads in a call whose key cannot be hashed. -/
theorem HInv.unusual (H : HInv ok c prog T s m t tm) (hg : (prog n).bad ok = true)
    (h : (s.wait i = none ∧ (s.st.pc i).mapOp c = some (prog n)) ∨ s.wait i = some n) {pc : PC K V} {w : Option Nat}
    (hnew : Bad ok c prog pc w ∨ pc = .done .panicked ∧ w = none) : Thr ok c prog pc w (t.st.pc i) (t.wait i) ((hideAll ok prog T).1 i) := by
  have hi := H.thr i
  cases hmd : (hideAll ok prog T).1 i with
  | usual =>
    rw [hmd] at hi
    obtain ⟨-, -, h1, h2⟩ := hi
    rcases h with ⟨-, h⟩ | h
    · have := keys_mapOp h h1; rw [hg] at this; cases this
    · have := h2 n h; rw [hg] at this; cases this
  | gone =>
    rw [hmd] at hi
    exact ⟨hi.1, hi.2.1, hnew⟩
  | made a =>
    rw [hmd] at hi
    rcases hi.2 with ⟨k, v, d, h1, -, h2, -⟩ | ⟨h1, -⟩
    · rcases h with ⟨-, h⟩ | h
      · rcases h1 with h1 | h1 <;> rw [h1] at h <;> cases h
      · rw [h2] at h; cases h
    · exact ⟨hi.1, .inr ⟨h1, hnew⟩⟩

theorem HInv.event (H : HInv ok c prog T s m t tm) (hg : (prog n).bad ok = false) : RWMap.event prog m n = RWMap.event prog tm n := by
  refine RWMap.event_eq ?_ (by rw [H.sim.sh]; rfl)
  rcases H.sim.pcs n hg with h | ⟨hl, x, y, ⟨h, -⟩ | ⟨h, -⟩⟩
  · exact h
  · rw [H.nolen n hl] at h; cases h
  · rw [H.nolen n hl] at h; cases h

theorem HInv.tau {ord : List (K × Nat) → List (K × Nat)} (H : HInv ok c prog T s m t tm) (hord : ∀ l, (ord l).Perm l)
    (hn : hnext ok ptrEq prog ord true m n = some m') (he : RWMap.event prog m n = []) : ∃ tm', HInv ok c prog T s m' t tm' := by
  have hnl : ∀ j, prog j = .len → m'.pc j = .idle := fun j hj => by
    by_cases hjn : j = n
    · subst hjn
      have := H.nolen j hj
      simp [RWMap.event, this] at he
    · rw [hnext_other hn hjn]; exact H.nolen j hj
  cases hb : (prog n).bad ok
  · rw [RWMap.hnext_good hb] at hn
    obtain ⟨tm', hnt, S⟩ := H.sim.good_step H.sys.map_exec hb hord hn
    rw [← H.event hb, he, List.append_nil, List.append_nil] at S
    exact ⟨tm', H.sys.tau hord hnt (by rw [← H.event hb, he]), S, hnl, H.thr, H.st⟩
  · have S := H.sim.bad_step hb hn
    rw [he, List.append_nil] at S
    exact ⟨tm, H.sys, S, hnl, H.thr, H.st⟩

theorem HInv.sync {ord : List (K × Nat) → List (K × Nat)} {e : RWMap.Ev K Nat} (H : HInv ok c prog T s m t tm) (hord : ∀ l, (ord l).Perm l)
    (hn : hnext ok ptrEq prog ord true m n = some m') (he : RWMap.event prog m n = [e]) (hs : hsync c prog s i e = some s') :
    ∃ t' tm', HInv ok c prog (T ++ [.map e]) s' m' t' tm' := by
  have hcall : e.call = n := RWMap.event_call (by rw [he]; simp)
  have hnl : ∀ j, prog j = .len → m'.pc j = .idle := fun j hj => by
    by_cases hjn : j = n
    · subst hjn
      have := H.nolen j hj
      simp [RWMap.event, this] at he
      subst he
      rcases sync_cases (show s.sync c prog i (.inv j) = some s' from hs) with ⟨_, _, hc, _, ho, hp, -⟩ | ⟨_, hc, _, ho, hp, -⟩ | ⟨_, _, _, _, hc, -⟩ | ⟨_, _, hc, -⟩ | ⟨_, _, _, hc, -⟩ <;> cases hc
      · rw [hp, hj] at ho; cases ho
      · have := mapOp_isMap ho hp; rw [hj] at this; cases this
    · rw [hnext_other hn hjn]; exact H.nolen j hj
  cases hb : (prog n).bad ok
  · -- a call of the map as usual
    rw [RWMap.hnext_good hb] at hn
    obtain ⟨tm', hnt, S⟩ := H.sim.good_step H.sys.map_exec hb hord hn
    have het : RWMap.event prog tm n = [e] := by rw [← H.event hb, he]
    have hx' : RWMap.Exec ptrEq prog ((hide ok prog T).filterMap Item.map? ++ [e]) tm' := by
      have := H.sys.map_exec.step ⟨n, ord, true, hord, hnt, rfl⟩
      rwa [het] at this
    have hsy : s.sync c prog i e = some s' := by
      unfold hsync at hs
      split at hs
      · next l => exact absurd (List.mem_append_right _ (by simp)) (RWMap.rwmap_comparable hx' (fun _ _ => by simp [ptrEq]) l)
      · exact hs
    rw [he, het] at S
    have hA : hideAll ok prog (T ++ [.map e]) = ((hideAll ok prog T).1, hide ok prog T ++ [.map e]) := by
      rw [hideAll_snoc]; simp only [hideStep, hcall, hb]; rfl
    have key : ∀ {pc : PC K V} {w : Option Nat}, (hideAll ok prog T).1 i = .usual → s' = ⟨s.st.go i pc, Function.update s.wait i w⟩ → keysOk ok pc →
        (∀ l, w = some l → (prog l).bad ok = false) → t.sync c prog i e = some ⟨t.st.go i pc, Function.update t.wait i w⟩ →
        ∃ t' tm', HInv ok c prog (T ++ [.map e]) s' m' t' tm' := by
      intro pc w hu hs' hk hw ht
      refine ⟨⟨t.st.go i pc, Function.update t.wait i w⟩, tm', { sys := ?_, sim := ?_, nolen := hnl, thr := fun j => ?_, st := ?_ }⟩
      · unfold hide; rw [hA]; exact H.sys.sync hord hnt het ht
      · unfold hide
        rw [hA]
        exact (show List.filterMap Item.map? (T ++ [.map e]) = _ from calls_map T e) ▸
          (show List.filterMap Item.map? (hide ok prog T ++ [.map e]) = _ from calls_map (hide ok prog T) e) ▸ S
      · have := thr_other (i := i) (md := .usual) H.thr (show Thr ok c prog pc w pc w .usual from ⟨rfl, rfl, hk, hw⟩) j
        rw [hA, hs']
        rw [← hu, Function.update_eq_self] at this
        exact this
      · rw [hs', H.st]; rfl
    have stay : ∀ x : Client K V, s.wait i = x.wait i → Function.update x.wait i (s.wait i) = x.wait := fun x hx => by rw [hx, Function.update_eq_self]
    have stayp : ∀ x : Client K V, x.st.go i (x.st.pc i) = x.st := fun x => by simp [State.go]
    have us : ∀ hu : (hideAll ok prog T).1 i = .usual, t.st.pc i = s.st.pc i ∧ t.wait i = s.wait i ∧ keysOk ok (s.st.pc i) ∧ ∀ n, s.wait i = some n → (prog n).bad ok = false :=
      fun hu => by have := H.thr i; rw [hu] at this; exact this
    rcases sync_cases hsy with ⟨l, kind, rfl, hw, ho, hp, rfl⟩ | ⟨l, rfl, hw, ho, hp, rfl⟩ | ⟨l, k, a, kind, rfl, hw, hp, rfl⟩ | ⟨l, r, rfl, hw, rfl⟩ |
      ⟨l, kind, acc, rfl, hw, hp, rfl⟩ <;> obtain rfl : l = n := hcall
    · have hu := H.usual hb (.inl ⟨hw, ho⟩)
      obtain ⟨u1, u2, u3, u4⟩ := us hu
      refine key (pc := .iter ⟨kind, [], l⟩) (w := s.wait i) hu (by rw [stay s rfl]) trivial u4 ?_
      rw [stay t u2.symm]
      rw [hp] at ho
      simp only [Client.sync, u1, u2, hw, hp, ho, and_self, if_true]
    · have hu := H.usual hb (.inl ⟨hw, ho⟩)
      obtain ⟨u1, u2, u3, u4⟩ := us hu
      refine key (pc := s.st.pc i) (w := some l) hu (by rw [stayp s]) u3 (fun x hx => by cases hx; exact hb) ?_
      rw [← u1, stayp t]
      simp only [Client.sync, u1, u2, hw, ho, and_self, if_true]
    · have hu := H.usual hb (.inr (.inr (by rw [hp]; rfl)))
      obtain ⟨u1, u2, u3, u4⟩ := us hu
      refine key (pc := Iter.visit ⟨kind, [], l⟩ k a) (w := s.wait i) hu (by rw [stay s rfl]) (keys_visit ?_) u4 ?_
      · obtain ⟨b, hb1, hb2⟩ := visit_stored hx' (n := l) (k := k) (a := a) (by simp)
        have hne := ((RWMap.exec_book hx').inv b).1 hb1
        have hbb : (prog b).bad ok = false := by
          by_contra hc
          exact hne (S.low b (by simpa using hc))
        simpa [RWMap.Op.bad, hb2.key.1] using hbb
      · rw [stay t u2.symm]
        simp only [Client.sync, u1, u2, hw, hp, if_true]
    · have hu := H.usual hb (.inr (.inl hw))
      obtain ⟨u1, u2, u3, u4⟩ := us hu
      refine key (pc := (s.st.pc i).cont c r) (w := none) hu rfl (keys_cont u3) (fun x hx => by cases hx) ?_
      simp only [Client.sync, u1, u2, hw, if_true]
    · have hu := H.usual hb (.inr (.inr (by rw [hp]; rfl)))
      obtain ⟨u1, u2, u3, u4⟩ := us hu
      refine key (pc := .done .unit) (w := s.wait i) hu (by rw [stay s rfl]) trivial u4 ?_
      rw [stay t u2.symm]
      simp only [Client.sync, u1, u2, hw, hp, if_true]
  · -- one that panics
    have S := H.sim.bad_step hb hn
    rw [he] at S
    have hA : hideAll ok prog (T ++ [.map e]) = hideAll ok prog T := by
      rw [hideAll_snoc]; simp only [hideStep, hcall, hb, if_true]
    have key : ∀ {pc : PC K V} {w : Option Nat}, s' = ⟨s.st.go i pc, Function.update s.wait i w⟩ → Thr ok c prog pc w (t.st.pc i) (t.wait i) ((hideAll ok prog T).1 i) →
        ∃ t' tm', HInv ok c prog (T ++ [.map e]) s' m' t' tm' := by
      intro pc w hs' ht
      refine ⟨t, tm, { sys := ?_, sim := ?_, nolen := hnl, thr := fun j => ?_, st := ?_ }⟩
      · unfold hide; rw [hA]; exact H.sys
      · unfold hide
        rw [hA]
        exact (show List.filterMap Item.map? (T ++ [.map e]) = _ from calls_map T e) ▸ S
      · have := thr_other (i := i) H.thr ht j
        rw [hA, hs']
        rw [Function.update_eq_self, Function.update_eq_self, Function.update_eq_self] at this
        exact this
      · rw [hs', H.st]; rfl
    have hevs : e = .inv n ∨ e = .ret n .panicked := by
      rcases RWMap.hnext_bad hb (H.sim.bads n hb) hn with ⟨-, -, h⟩ | ⟨-, -, -, h⟩ | ⟨-, -, -, h⟩ | ⟨-, -, -, h⟩ | ⟨-, -, h⟩ <;> rw [he] at h <;> cases h
      · exact .inl rfl
      · exact .inr rfl
    rcases hevs with rfl | rfl
    · rcases sync_cases (show s.sync c prog i (.inv n) = some s' from hs) with ⟨l, kind, hc, hw, ho, hp, rfl⟩ | ⟨l, hc, hw, ho, hp, rfl⟩ | ⟨_, _, _, _, hc, -⟩ | ⟨_, _, hc, -⟩ | ⟨_, _, _, hc, -⟩ <;> cases hc
      · rw [hp] at ho
        simp only [PC.mapOp, Option.some.injEq] at ho
        rw [← ho] at hb
        cases hb
      · refine key (pc := s.st.pc i) (w := some n) (by simp [State.go]) (H.unusual hb (.inl ⟨hw, ho⟩) (.inl ⟨_, ho, hb, fun x hx => by cases hx; exact hb⟩))
    · simp only [hsync] at hs
      split at hs
      · next hw =>
        cases hs
        exact key (pc := .done .panicked) (w := none) rfl (H.unusual hb (.inr hw) (.inr ⟨rfl, rfl⟩))
      · cases hs

theorem hsys_inv (h : HSys ok c prog T s m) : ∃ t tm, HInv ok c prog T s m t tm := by
  induction h with
  | init =>
    refine ⟨.init, .init, .init, ?_, fun _ _ => rfl, fun _ => ⟨rfl, rfl, trivial, fun n hn => by cases hn⟩, rfl⟩
    refine { sh := rfl, low := fun _ _ => rfl, pcs := fun _ _ => .inl rfl, hist := .nil, bads := fun _ _ => .inl rfl, binv := ?_, bret := ?_,
             count := ⟨[], .nil, by simp, rfl, ?_⟩, clean := fun _ => ⟨rfl, fun _ _ => rfl, rfl⟩ }
    · intro i _; simp [RWMap.State.init]
    · intro i _ r; simp [RWMap.State.init]
    · rintro _ i _ _ (h | h) <;> cases h
  | loc _ hl ih =>
    obtain ⟨t, tm, H⟩ := ih
    obtain ⟨t', H'⟩ := H.loc hl
    exact ⟨t', tm, H'⟩
  | tau _ hord hn he ih =>
    obtain ⟨t, tm, H⟩ := ih
    obtain ⟨tm', H'⟩ := H.tau hord hn he
    exact ⟨t, tm', H'⟩
  | sync _ hord hn he hs ih =>
    obtain ⟨t, tm, H⟩ := ih
    exact H.sync hord hn he hs

/-! ## The calls that panic -/

theorem HSys.prefix (h : HSys ok c prog T s m) : ∀ A B, T = A ++ B → ∃ s m, HSys ok c prog A s m := by
  induction h with
  | init => rintro A B hT; obtain ⟨rfl, rfl⟩ := List.append_eq_nil_iff.1 hT.symm; exact ⟨_, _, .init⟩
  | @loc T s m i inp s' e h1 h2 ih =>
    intro A B hT
    rcases List.eq_nil_or_concat B with rfl | ⟨B', x, rfl⟩
    · rw [List.append_nil] at hT; subst hT; exact ⟨_, _, h1.loc h2⟩
    · rw [List.concat_eq_append, ← List.append_assoc] at hT
      exact ih A B' (List.append_inj_left' hT rfl)
  | tau _ _ _ _ ih => exact ih
  | @sync T s m n ord m' e i s' h1 h2 h3 h4 h5 ih =>
    intro A B hT
    rcases List.eq_nil_or_concat B with rfl | ⟨B', x, rfl⟩
    · rw [List.append_nil] at hT; subst hT; exact ⟨_, _, h1.sync h2 h3 h4 h5⟩
    · rw [List.concat_eq_append, ← List.append_assoc] at hT
      exact ih A B' (List.append_inj_left' hT rfl)

theorem HSys.last (h : HSys ok c prog T s m) : ∀ A e, T = A ++ [.loc e] → ∃ s m i inp s', HSys ok c prog A s m ∧ s.loc c i inp = some (s', e) := by
  induction h with
  | init => intro A e hT; simp at hT
  | loc h1 h2 _ =>
    intro A e hT
    obtain ⟨rfl, h3⟩ := List.append_inj' hT rfl
    cases h3
    exact ⟨_, _, _, _, _, h1, h2⟩
  | tau _ _ _ _ ih => exact ih
  | sync h1 h2 h3 h4 h5 _ =>
    intro A e hT
    obtain ⟨rfl, h3⟩ := List.append_inj' hT rfl
    cases h3

theorem step_yield {st st' : State K V} {inp : In K V} (h : step c [] st i inp = some (st', .yield j k a)) : ∃ it, st.pc i = .fCall k a it := by
  unfold step at h
  split at h <;> first | (cases h; done) | skip
  all_goals first
    | (rename_i hpc; cases h; exact ⟨_, hpc⟩; done)
    | (repeat' split at h)
  all_goals cases h

theorem hsync_cases {e : RWMap.Ev K Nat} (h : hsync c prog s i e = some s') :
    (∀ j, j ≠ i → s'.st.pc j = s.st.pc j) ∧
    ((s.wait i = none ∧ (s.st.pc i).mapOp c = some (prog e.call)) ∨ s.wait i = some e.call ∨ (s.st.pc i).isIter = true) ∧
    (e = .inv e.call → (∀ kind, s.st.pc i ≠ .iStart kind) → s'.st = s.st) ∧ (e = .ret e.call .panicked → s'.st.pc i = .done .panicked) := by
  have ho : ∀ {st : State K V} {pc : PC K V} {j : Nat}, j ≠ i → (st.go i pc).pc j = st.pc j := fun hj => by simp [State.go, hj]
  unfold hsync at h
  split at h
  · split at h
    · next hw => cases h; exact ⟨fun j hj => ho hj, .inr (.inl hw), nofun, fun _ => by simp [State.go]⟩
    · cases h
  · next hnp =>
    rcases sync_cases h with ⟨l, kind, rfl, hw, ho', hp, rfl⟩ | ⟨l, rfl, hw, ho', hp, rfl⟩ | ⟨l, k, a, kind, rfl, hw, hp, rfl⟩ | ⟨l, r, rfl, hw, rfl⟩ |
      ⟨l, kind, acc, rfl, hw, hp, rfl⟩
    · exact ⟨fun j hj => ho hj, .inl ⟨hw, ho'⟩, fun _ h => absurd hp (h kind), nofun⟩
    · exact ⟨fun j hj => rfl, .inl ⟨hw, ho'⟩, fun _ _ => rfl, nofun⟩
    · exact ⟨fun j hj => ho hj, .inr (.inr (by rw [hp]; rfl)), nofun, nofun⟩
    · refine ⟨fun j hj => ho hj, .inr (.inl hw), nofun, fun he => ?_⟩
      cases he
      exact absurd rfl (hnp l)
    · exact ⟨fun j hj => ho hj, .inr (.inr (by rw [hp]; rfl)), nofun, nofun⟩

/-- What thread `i` has done in a call whose key cannot be hashed. -/
structure Fate (ok : K → Bool) (T : List (Item K V)) (prog : Nat → RWMap.Op K Nat) (s : Client K V) (i p : Nat) (op : Op K V) : Prop where
  evs : ∀ (x : Nat) (e : Ev K V), p < x → (locs T)[x]? = some e → e.tid = i →
    e = .ret i .panicked ∨ ∃ a v now d, e = .mk i a v now d ∧ instead op = some (.newEntry v d)
  idle : (hideAll ok prog T).1 i = .usual → s.st.pc i = .idle
  link : ∀ k v d, s.st.pc i = .stMk k v d ∨ s.st.pc i = .losMk k v d → instead op = some (.newEntry v d)
  ret : ∀ (x : Nat) (r : Res V), p < x → (locs T)[x]? = some (.ret i r) → s.st.pc i = .idle

theorem idle_wait (H : HInv ok c prog T s m t tm) (hm : (hideAll ok prog T).1 i = .usual) (hi : s.st.pc i = .idle) : s.wait i = none := by
  have := H.thr i
  rw [hm] at this
  cases hw : s.wait i with
  | none => rfl
  | some n =>
    have h1 := ((sys_inv H.sys).wait i n (this.2.1.trans hw)).1
    rw [this.1, hi] at h1
    cases h1

omit [DecidableEq K] in
theorem cur_of {x : Ev K V} (h : Cur (L ++ [x]) i p op) (hx : ∀ op, x ≠ .call i op) : Cur L i p op := by
  refine ⟨?_, fun n op' hn hc => h.2 n op' hn (get_keep hc)⟩
  rcases get_snoc.1 h.1 with h1 | ⟨-, h1⟩
  · exact h1
  · exact absurd h1.symm (hx op)

theorem hsys_fate (h : HSys ok c prog T s m) : ∀ i p op, Cur (locs T) i p op → bad ok op = true → Fate ok T prog s i p op := by
  induction h with
  | init => rintro i p op ⟨h, -⟩; simp at h
  | @loc T s m l inp s' e h hl ih =>
    intro i p op hcur hb
    obtain ⟨t, tm, H⟩ := hsys_inv h
    obtain ⟨hw, hm, hit, hs, hw', hother, -⟩ := loc_cases hl
    have htid := step_tid hs
    rw [locs_loc] at hcur
    have hlen : (locs T)[p]? = some (.call i op) ∨ (p = (locs T).length ∧ .call i op = e) := get_snoc.1 hcur.1
    by_cases hli : l = i
    · subst hli
      by_cases hce : ∃ op', e = .call l op'
      · obtain ⟨op', rfl⟩ := hce
        have hp : p = (locs T).length ∧ op' = op := by
          rcases hlen with h1 | ⟨h1, h2⟩
          · exact absurd get_new (hcur.2 _ op' (get_lt h1))
          · cases h2; exact ⟨h1, rfl⟩
        obtain ⟨rfl, rfl⟩ := hp
        obtain ⟨-, hst⟩ := step_call hs
        have hpc : s'.st.pc l = enter op' := by rw [hst]; simp [State.go]
        refine ⟨fun x e hx he _ => ?_, fun hu => ?_, fun k v d hk => ?_, fun x r hx he => ?_⟩
        · rw [locs_loc] at he; have := get_lt he; simp at this; omega
        · rw [hideAll_snoc] at hu
          simp only [hideStep, hb, if_true] at hu
          split at hu <;> simp at hu
        · rw [hpc] at hk
          cases op' <;> simp [enter] at hk <;> obtain ⟨-, rfl, rfl⟩ := hk <;> rfl
        · rw [locs_loc] at he; have := get_lt he; simp at this; omega
      · have hce' : ∀ op', e ≠ .call l op' := fun op' h => hce ⟨op', h⟩
        have F := ih l p op (cur_of hcur hce') hb
        have hni : s.st.pc l ≠ .idle := fun hid => by
          obtain ⟨op', he, -⟩ := Float.step_idle hs hid
          exact hce' op' he
        have hnu : (hideAll ok prog T).1 l ≠ .usual := fun hu => hni (F.idle hu)
        have hnr : ∀ (x : Nat) (r : Res V), p < x → (locs T)[x]? ≠ some (.ret l r) := fun x r hx hr => hni (F.ret x r hx hr)
        have hi := H.thr l
        have case : (s.st.pc l = .done .panicked ∧ e = .ret l .panicked ∧ s'.st.pc l = .idle) ∨
            ((∃ a, (hideAll ok prog T).1 l = .made a) ∧ (∃ a v now d, e = .mk l a v now d ∧ instead op = some (.newEntry v d)) ∧
              ∀ k v d, ¬ (s'.st.pc l = .stMk k v d ∨ s'.st.pc l = .losMk k v d)) := by
          have dn : s.st.pc l = .done .panicked → e = .ret l .panicked ∧ s'.st.pc l = .idle := fun h3 => by
            simp only [step, h3] at hs
            cases inp <;> simp only [reduceCtorEq, Option.some.injEq, Prod.mk.injEq] at hs
            obtain ⟨hst', rfl⟩ := hs
            exact ⟨rfl, by rw [← hst']; simp [State.go]⟩
          cases hmd : (hideAll ok prog T).1 l with
          | usual => exact absurd hmd hnu
          | gone =>
            rw [hmd] at hi
            rcases hi.2.2 with ⟨mop, h3, -⟩ | ⟨h3, -⟩
            · rw [hm] at h3; cases h3
            · exact .inl ⟨h3, dn h3⟩
          | made a =>
            rw [hmd] at hi
            rcases hi.2 with ⟨k, v, d, h3, -⟩ | ⟨-, ⟨mop, h3, -⟩ | ⟨h3, -⟩⟩
            · refine .inr ⟨⟨a, rfl⟩, ?_⟩
              have hin := F.link k v d h3
              rcases h3 with h3 | h3 <;> simp only [step, h3] at hs <;> cases inp <;>
                simp only [reduceCtorEq, Option.some.injEq, Prod.mk.injEq] at hs <;> obtain ⟨hst', rfl⟩ := hs <;>
                exact ⟨⟨_, _, _, _, rfl, hin⟩, fun _ _ _ => by rw [← hst']; simp [State.go]⟩
            · rw [hm] at h3; cases h3
            · exact .inl ⟨h3, dn h3⟩
        rcases case with ⟨hd, rfl, hid⟩ | ⟨⟨a, hmd⟩, ⟨a', v, now, d, rfl, hin⟩, hno⟩
        · refine ⟨fun x e hx he ht => ?_, fun _ => hid, fun k v d hk => ?_, fun _ _ _ _ => hid⟩
          · rw [locs_loc] at he
            rcases get_snoc.1 he with he | ⟨-, rfl⟩
            · exact F.evs x e hx he ht
            · exact .inl rfl
          · rw [hid] at hk; rcases hk with hk | hk <;> cases hk
        · refine ⟨fun x e hx he ht => ?_, fun hu => ?_, fun k v d hk => absurd hk (hno k v d), fun x r hx he => ?_⟩
          · rw [locs_loc] at he
            rcases get_snoc.1 he with he | ⟨-, rfl⟩
            · exact F.evs x e hx he ht
            · exact .inr ⟨_, _, _, _, rfl, hin⟩
          · rw [hideAll_snoc] at hu
            simp [hideStep, hmd] at hu
          · rw [locs_loc] at he
            rcases get_snoc.1 he with he | ⟨-, he⟩
            · exact absurd he (hnr x r hx)
            · cases he
    · have hne : ∀ op', e ≠ .call i op' := fun op' he => hli (by rw [← htid, he]; rfl)
      have F := ih i p op (cur_of hcur hne) hb
      have hpc := hother i (Ne.symm hli)
      have hmode : (hideAll ok prog (T ++ [.loc e])).1 i = (hideAll ok prog T).1 i := by
        rw [hideAll_snoc]
        cases e <;> simp only [Ev.tid] at htid <;> subst htid <;> simp only [hideStep]
        all_goals (repeat' split)
        all_goals first | rfl | exact Function.update_of_ne (Ne.symm hli) _ _
      refine ⟨fun x e' hx he ht => ?_, fun hu => ?_, fun k v d hk => ?_, fun x r hx he => ?_⟩
      · rw [locs_loc] at he
        rcases get_snoc.1 he with he | ⟨-, rfl⟩
        · exact F.evs x e' hx he ht
        · exact absurd (htid.symm.trans ht) hli
      · rw [hpc]; exact F.idle (hmode ▸ hu)
      · rw [hpc] at hk; exact F.link k v d hk
      · rw [hpc]
        rw [locs_loc] at he
        rcases get_snoc.1 he with he | ⟨-, rfl⟩
        · exact F.ret x r hx he
        · exact absurd htid.symm hli
  | tau _ _ _ _ ih => exact fun i p op hc hb => ⟨(ih i p op hc hb).evs, (ih i p op hc hb).idle, (ih i p op hc hb).link, (ih i p op hc hb).ret⟩
  | @sync T s m n ord m' e l s' h hord hn he hs ih =>
    intro i p op hcur hb
    obtain ⟨t, tm, H⟩ := hsys_inv h
    rw [locs_map] at hcur
    have F := ih i p op hcur hb
    obtain ⟨h1, h2, h3, h4⟩ := hsync_cases hs
    have hmode : (hideAll ok prog (T ++ [.map e])).1 = (hideAll ok prog T).1 := by
      rw [hideAll_snoc]; simp only [hideStep]; split <;> rfl
    by_cases hli : i = l
    · subst hli
      have hcall : e.call = n := RWMap.event_call (by rw [he]; simp)
      have hni : s.st.pc i ≠ .idle := fun hid => by
        by_cases hu : (hideAll ok prog T).1 i = .usual
        · have := idle_wait H hu hid
          rw [hid, this] at h2
          rcases h2 with ⟨-, h⟩ | h | h <;> cases h
        · have hi := H.thr i
          cases hmd : (hideAll ok prog T).1 i with
          | usual => exact hu hmd
          | gone =>
            rw [hmd, hid] at hi
            rcases hi.2.2 with ⟨mop, h3, -⟩ | ⟨h3, -⟩ <;> cases h3
          | made a =>
            rw [hmd, hid] at hi
            rcases hi.2 with ⟨k, v, d, h3 | h3, -⟩ | ⟨-, ⟨mop, h3, -⟩ | ⟨h3, -⟩⟩ <;> cases h3
      have hnu : (hideAll ok prog T).1 i ≠ .usual := fun hu => hni (F.idle hu)
      have hbad : (prog n).bad ok = true := by
        by_contra hg
        rw [hcall] at h2
        exact hnu (H.usual (by simpa using hg) h2)
      have hpc : s'.st.pc i = s.st.pc i ∨ s'.st.pc i = .done .panicked := by
        rcases RWMap.hnext_bad hbad (H.sim.bads n hbad) hn with ⟨-, -, h⟩ | ⟨-, -, -, h⟩ | ⟨-, -, -, h⟩ | ⟨-, -, -, h⟩ | ⟨-, -, h⟩ <;> rw [he] at h <;> cases h
        · refine .inl ?_
          rw [h3 rfl fun kind hk => ?_]
          have hi := H.thr i
          cases hmd : (hideAll ok prog T).1 i with
          | usual => exact hnu hmd
          | gone =>
            rw [hmd, hk] at hi
            rcases hi.2.2 with ⟨mop, h3, h4, -⟩ | ⟨h3, -⟩ <;> cases h3
            cases h4
          | made a =>
            rw [hmd, hk] at hi
            rcases hi.2 with ⟨k, v, d, h3 | h3, -⟩ | ⟨-, ⟨mop, h3, h4, -⟩ | ⟨h3, -⟩⟩ <;> cases h3
            cases h4
        · exact .inr (h4 rfl)
      refine ⟨by rw [locs_map]; exact F.evs, fun hu => absurd (hmode ▸ hu) hnu, fun k v d hk => ?_, fun x r hx hr => ?_⟩
      · rcases hpc with hpc | hpc <;> rw [hpc] at hk
        · exact F.link k v d hk
        · rcases hk with hk | hk <;> cases hk
      · rw [locs_map] at hr
        exact absurd (F.ret x r hx hr) hni
    · have hpc := h1 i hli
      exact ⟨by rw [locs_map]; exact F.evs, fun hu => by rw [hpc]; exact F.idle (hmode ▸ hu), fun k v d hk => F.link k v d (by rwa [hpc] at hk),
        fun x r hx hr => by rw [hpc]; exact F.ret x r hx (by rwa [locs_map] at hr)⟩

/-! ## C161 -/

/-- **C161**: without the calls whose keys cannot be hashed (`Store` and `LoadOrStore` replaced by `NewEntry`), what is left of an execution is an execution without
them, step by step; entries, registration and the map are the same, up to the counter `len`, which the cache does not read. -/
theorem C161_without (h : HSys ok c prog T s m) : ∃ t tm, Sys c prog (hide ok prog T) t tm ∧ t.st.ents = s.st.ents ∧ t.st.reg = s.st.reg ∧
    tm.sh = { m.sh with len := tm.sh.len } := by
  obtain ⟨t, tm, H⟩ := hsys_inv h
  exact ⟨t, tm, H.sys, by rw [H.st], by rw [H.st], H.sim.sh⟩

/-- **C161**: so whatever holds of all one can see of the cache over an atomic map (C08-C15, C22, C23 and so on), holds of what one can see of the calls whose keys
can be hashed. -/
theorem C161_atomic (h : HSys ok c prog T s m) {P : List (Ev K V) → Prop} (hP : ∀ tr hist as, Exec c tr hist as → P (tr.filter Ev.visible)) :
    P (log (hide ok prog T)) := by
  obtain ⟨t, tm, hx, -⟩ := C161_without h
  exact sync_whole_all hx hP

/-- **C161**: a call whose key cannot be hashed panics, and does nothing before, except that `Store` and `LoadOrStore` make an entry: it neither looks at the clock nor
at an entry for anything else, and calls no function of the user. -/
theorem C161_panics {q : Nat} {r : Res V} (h : HSys ok c prog T s m) (hc : CallAt (locs T) i p op q) (hq : (locs T)[q]? = some (.ret i r))
    (hb : bad ok op = true) : r = .panicked ∧ ∀ (x : Nat) (e : Ev K V), p < x → x < q → (locs T)[x]? = some e → e.tid = i →
      ∃ a v now d, e = .mk i a v now d ∧ instead op = some (.newEntry v d) := by
  obtain ⟨A, B, rfl, hA⟩ := Float.split_at hq
  have hT : locs (A ++ .loc (.ret i r) :: B) = locs A ++ .ret i r :: locs B := by
    simp [locs, List.filterMap_append, Item.loc?]
  rw [hT] at hc hq ⊢
  have hcur : Cur (locs A) i p op := by
    refine ⟨?_, fun n op' hn hc' => ?_⟩
    · have := hc.at_
      rwa [List.getElem?_append_left (by rw [hA]; exact hc.lt)] at this
    · have hl := get_lt hc'
      exact hc.only n op' hn (by omega) (by rw [List.getElem?_append_left hl]; exact hc')
  obtain ⟨s1, m1, h1⟩ := h.prefix (A ++ [.loc (.ret i r)]) B (by simp)
  have hcur' : Cur (locs (A ++ [.loc (.ret i r)])) i p op := by rw [locs_loc]; exact cur_loc hcur nofun
  have F' := hsys_fate h1 i p op hcur' hb
  refine ⟨?_, fun x e hx hxq he ht => ?_⟩
  · rcases F'.evs q (.ret i r) hc.lt (by rw [locs_loc, ← hA]; exact get_new) rfl with h | ⟨_, _, _, _, h, -⟩ <;> cases h
    rfl
  · rw [List.getElem?_append_left (by rw [hA]; exact hxq)] at he
    obtain ⟨s0, m0, i0, inp, s1', h0, hl⟩ := HSys.last h1 A _ rfl
    have F := hsys_fate h0 i p op hcur hb
    rcases F.evs x e hx he ht with rfl | h
    · have hid := F.ret x _ hx he
      obtain ⟨-, -, -, hs, -⟩ := loc_cases hl
      obtain ⟨rfl, hd⟩ := Float.step_ret hs
      rw [hid] at hd
      cases hd
    · exact h

/-- **C161**: the cache never hands out a key that cannot be hashed. -/
theorem C161_keys (h : HSys ok c prog T s m) (hy : .loc (.yield i k a) ∈ T) : ok k = true := by
  induction h with
  | init => cases hy
  | tau _ _ _ _ ih => exact ih hy
  | sync _ _ _ _ _ ih =>
    rcases List.mem_append.1 hy with hy | hy
    · exact ih hy
    · simp at hy
  | @loc T s m l inp s' e h hl ih =>
    rcases List.mem_append.1 hy with hy | hy
    · exact ih hy
    · rw [List.mem_singleton] at hy
      cases hy
      obtain ⟨t, tm, H⟩ := hsys_inv h
      obtain ⟨-, hm, -, hs, -⟩ := loc_cases hl
      obtain ⟨it, hp⟩ := step_yield hs
      have hi := H.thr l
      cases hmd : (hideAll ok prog T).1 l with
      | usual => rw [hmd, hp] at hi; exact hi.2.2.1
      | gone =>
        rw [hmd, hp] at hi
        rcases hi.2.2 with ⟨mop, h3, -⟩ | ⟨h3, -⟩ <;> cases h3
      | made a =>
        rw [hmd, hp] at hi
        rcases hi.2 with ⟨k, v, d, h3 | h3, -⟩ | ⟨-, ⟨mop, h3, -⟩ | ⟨h3, -⟩⟩ <;> cases h3

theorem map_panics (h : HSys ok c prog T s m) (hw : s.wait i = none) (ho : (s.st.pc i).mapOp c = some (prog n)) (hb : (prog n).bad ok = true)
    (hn : m.pc n = .idle) : ∃ m', HSys ok c prog (T ++ [.map (.inv n)] ++ [.map (.ret n .panicked)]) ⟨s.st.go i (.done .panicked), s.wait⟩ m' ∧
      m'.sh = { m.sh with len := m'.sh.len } ∧ ∀ j, j ≠ n → m'.pc j = m.pc j := by
  have ord : ∀ l : List (K × Nat), (id l).Perm l := fun l => .refl l
  have hns : ∀ kind, s.st.pc i ≠ .iStart kind := fun kind hk => by
    rw [hk] at ho
    simp only [PC.mapOp, Option.some.injEq] at ho
    rw [← ho] at hb
    cases hb
  have hg : ∀ (m : RWMap.State K Nat) (pc : RWMap.PC K Nat), (m.goto n pc).pc n = pc := fun m pc => by simp [RWMap.State.goto]
  have s1 : hsync c prog s i (.inv n) = some ⟨s.st, Function.update s.wait i (some n)⟩ := by
    simp only [hsync, Client.sync, hw, ho, and_self, if_true]
  have h1 : HSys ok c prog (T ++ [.map (.inv n)]) ⟨s.st, Function.update s.wait i (some n)⟩ (m.goto n .start) :=
    h.sync ord (n := n) (by simp only [hnext, RWMap.next, hn]) (by simp only [RWMap.event, hn]) s1
  have h2 := h1.tau (n := n) ord (m' := (m.goto n .start).goto n (RWMap.raise (prog n))) (by simp only [hnext, hg, hb, if_true]) (by simp only [RWMap.event, hg])
  have fin : ∀ {m0 : RWMap.State K Nat}, HSys ok c prog (T ++ [.map (.inv n)]) ⟨s.st, Function.update s.wait i (some n)⟩ m0 → m0.pc n = .fin .panicked →
      HSys ok c prog (T ++ [.map (.inv n)] ++ [.map (.ret n .panicked)]) ⟨s.st.go i (.done .panicked), s.wait⟩ (m0.goto n (.done .panicked)) := by
    intro m0 h0 hp
    refine h0.sync (n := n) ord (by simp only [hnext, RWMap.next, hp]) (by simp only [RWMap.event, hp]) (i := i) ?_
    simp only [hsync, Function.update_self, if_true, Function.update_idem]
    rw [← hw, Function.update_eq_self]
  have hsh : ∀ (m : RWMap.State K Nat) (pc : RWMap.PC K Nat), (m.goto n pc).sh = m.sh := fun _ _ => rfl
  have hr : RWMap.raise (prog n) = .fin .panicked ∨ RWMap.raise (prog n) = .add 1 .panicked := by cases prog n <;> first | exact .inl rfl | exact .inr rfl
  rcases hr with hr | hr <;> rw [hr] at h2
  · exact ⟨_, fin h2 (hg _ _), rfl, fun j hj => by simp [RWMap.State.goto, hj]⟩
  · have h3 := h2.tau (n := n) ord (by simp only [hnext, RWMap.next, hg]; rfl) (by simp only [RWMap.event, hg])
    exact ⟨_, fin h3 (hg _ _), rfl, fun j hj => by simp [RWMap.State.goto, hj]⟩

/-- **C161**: a call whose key cannot be hashed waits for nothing: whatever the others are doing, it runs by itself to the end, and then panics. It leaves the map as it is,
but for the counter, and the entries as they are, but for the one made. -/
theorem C161_alone (h : HSys ok c prog T s m) (hi : s.st.pc i = .idle) (hw : s.wait i = none) (hb : bad ok op = true) (now : Int)
    (hfree : ∀ mop : RWMap.Op K Nat, ∃ n, prog n = mop ∧ m.pc n = .idle) :
    ∃ T' s' m', HSys ok c prog (T ++ T') s' m' ∧ locs T' = .call i op :: ((match instead op with
        | some (.newEntry v d) => [.mk i s.st.ents.length v now d]
        | _ => []) ++ [.ret i .panicked]) ∧
      (∀ j, s'.st.pc j = s.st.pc j) ∧ s'.wait = s.wait ∧ s'.st.reg = s.st.reg ∧ s.st.ents <+: s'.st.ents ∧ m'.sh = { m.sh with len := m'.sh.len } := by
  have hcall : HSys ok c prog (T ++ [.loc (.call i op)]) ⟨s.st.go i (enter op), s.wait⟩ m :=
    h.loc (loc_of (inp := .call op) hw (by rw [hi]; rfl) (by rw [hi]; rfl) (by simp only [step, hi]))
  have self : ∀ (st : State K V) (pc : PC K V), (st.go i pc).pc i = pc := fun st pc => by simp [State.go]
  have fin : ∀ {T0 : List (Item K V)} {st : State K V} {pc : PC K V} {mop : RWMap.Op K Nat}, HSys ok c prog T0 ⟨st.go i pc, s.wait⟩ m → pc.mapOp c = some mop →
      mop.bad ok = true → ∃ n m', HSys ok c prog (T0 ++ [.map (.inv n)] ++ [.map (.ret n .panicked)] ++ [.loc (.ret i .panicked)])
        ⟨((st.go i pc).go i (.done .panicked)).go i .idle, s.wait⟩ m' ∧ m'.sh = { m.sh with len := m'.sh.len } := by
    intro T0 st pc mop h0 ho hbad
    obtain ⟨n, rfl, hn⟩ := hfree mop
    obtain ⟨m', h1, h2, -⟩ := map_panics (i := i) h0 hw (by simp only [self]; exact ho) hbad hn
    refine ⟨n, m', ?_, h2⟩
    exact h1.loc (loc_of (inp := .go) hw (by simp only [self]; rfl) (by simp only [self]; rfl) (by simp only [step, self]))
  have back : ∀ (st : State K V) (pc pc' : PC K V), st.pc = s.st.pc → ∀ j, (((st.go i pc).go i pc').go i .idle).pc j = s.st.pc j := by
    intro st pc pc' hst j
    by_cases hj : j = i
    · subst hj; simp [State.go, hi]
    · simp [State.go, hj, hst]
  have hin : (instead op = none ∧ ∃ mop, (enter op).mapOp c = some mop ∧ mop.bad ok = true) ∨
      (∃ k v d, instead op = some (.newEntry v d) ∧ ok k = false ∧ (enter op = .stMk k v d ∨ enter op = .losMk k v d)) := by
    cases op <;> simp only [bad, key?, reduceCtorEq] at hb <;>
      first
      | (refine .inl ⟨rfl, _, rfl, ?_⟩; exact hb; done)
      | exact .inr ⟨_, _, _, rfl, by simpa using hb, .inl rfl⟩
      | exact .inr ⟨_, _, _, rfl, by simpa using hb, .inr rfl⟩
  rcases hin with ⟨hin, mop, ho, hbad⟩ | ⟨k, v, d, hin, hk, hp⟩
  · obtain ⟨n, m', h1, h2⟩ := fin hcall ho hbad
    refine ⟨[.loc (.call i op)] ++ [.map (.inv n)] ++ [.map (.ret n .panicked)] ++ [.loc (.ret i .panicked)],
      ⟨((s.st.go i (enter op)).go i (.done .panicked)).go i .idle, s.wait⟩, m', by simpa using h1, ?_, back _ _ _ rfl, rfl, rfl,
      List.prefix_refl _, h2⟩
    rw [hin]; simp [locs, Item.loc?]; rfl
  · obtain ⟨pc, hs, ho⟩ : ∃ pc, step c [] (s.st.go i (enter op)) i (.time now) =
        some (((s.st.mk_ v now d).go i (enter op)).go i pc, .mk i s.st.ents.length v now d) ∧ ∃ mop, pc.mapOp c = some mop ∧ mop.bad ok = true := by
      rcases hp with hp | hp <;> rw [hp] <;> simp only [step, self]
      · exact ⟨.stPut k s.st.ents.length, rfl, _, rfl, by simp [RWMap.Op.bad, RWMap.Op.key?, hk]⟩
      · exact ⟨.losTry k v d s.st.ents.length, rfl, _, rfl, by simp [RWMap.Op.bad, RWMap.Op.key?, hk]⟩
    obtain ⟨mop, ho, hbad⟩ := ho
    have hmk := hcall.loc (loc_of (inp := .time now) hw (by simp only [self]; rcases hp with hp | hp <;> rw [hp] <;> rfl)
      (by simp only [self]; rcases hp with hp | hp <;> rw [hp] <;> rfl) hs)
    obtain ⟨n, m', h1, h2⟩ := fin hmk ho hbad
    refine ⟨[.loc (.call i op)] ++ [.loc (.mk i s.st.ents.length v now d)] ++ [.map (.inv n)] ++ [.map (.ret n .panicked)] ++ [.loc (.ret i .panicked)],
      ⟨((((s.st.mk_ v now d).go i (enter op)).go i pc).go i (.done .panicked)).go i .idle, s.wait⟩, m', by simpa using h1, ?_, fun j => ?_, rfl, rfl, List.prefix_append _ _, h2⟩
    · rw [hin]; simp [locs, Item.loc?]; rfl
    · by_cases hj : j = i
      · subst hj; simp [State.go, hi]
      · simp [State.go, hj, State.mk_]

/-- If all keys can be hashed these are the executions of `Sys.lean`. -/
theorem hsys_sys : HSys (fun _ : K => true) c prog T s m ↔ Sys c prog T s m := by
  have hg : ∀ n, (prog n).bad (fun _ => true) = false := fun n => by unfold RWMap.Op.bad; split <;> rfl
  have hne : ∀ {ord : List (K × Nat) → List (K × Nat)} {m : RWMap.State K Nat} {n : Nat}, hnext (fun _ => true) ptrEq prog ord true m n = RWMap.next ptrEq prog ord true m n :=
    fun {_ _ n} => RWMap.hnext_good (hg n)
  have nop : ∀ {T : List (Item K V)} {s : Client K V} {m m' : RWMap.State K Nat} {n l : Nat} {ord : List (K × Nat) → List (K × Nat)}, Sys c prog T s m →
      (∀ l, (ord l).Perm l) → RWMap.next ptrEq prog ord true m n = some m' → RWMap.event prog m n ≠ [.ret l .panicked] := by
    intro T s m m' n l ord h hord hn he
    have := h.map_exec.step ⟨n, ord, true, hord, hn, rfl⟩
    exact RWMap.rwmap_comparable this (fun _ _ => by simp [ptrEq]) l (by rw [he]; simp)
  have hsy : ∀ {T : List (Item K V)} {s : Client K V} {m m' : RWMap.State K Nat} {n i : Nat} {e : RWMap.Ev K Nat} {ord : List (K × Nat) → List (K × Nat)},
      Sys c prog T s m → (∀ l, (ord l).Perm l) → RWMap.next ptrEq prog ord true m n = some m' → RWMap.event prog m n = [e] →
      hsync c prog s i e = s.sync c prog i e := by
    intro T s m m' n i e ord h hord hn he
    unfold hsync
    split
    · exact absurd he (nop h hord hn)
    · rfl
  constructor
  · intro h
    induction h with
    | init => exact .init
    | loc _ h1 ih => exact ih.loc h1
    | tau _ h1 h2 h3 ih => exact ih.tau h1 (hne ▸ h2) h3
    | sync _ h1 h2 h3 h4 ih => exact ih.sync h1 (hne ▸ h2) h3 (by rwa [hsy ih h1 (hne ▸ h2) h3] at h4)
  · intro h
    induction h with
    | init => exact .init
    | loc _ h1 ih => exact ih.loc h1
    | tau _ h1 h2 h3 ih => exact ih.tau h1 (hne.trans h2) h3
    | sync h0 h1 h2 h3 h4 ih => exact ih.sync h1 (hne.trans h2) h3 (by rw [hsy h0 h1 h2 h3]; exact h4)

/-! ## A concrete execution -/

def hsysPlay (ok : K → Bool) (c : Cfg V) (prog : Nat → RWMap.Op K Nat) : List (Cmd K V) → List (Item K V) → Client K V → RWMap.State K Nat → Option (List (Item K V))
  | [], T, _, _ => some T
  | .loc i inp :: l, T, s, m =>
    match s.loc c i inp with
    | none => none
    | some (s', e) => hsysPlay ok c prog l (T ++ [.loc e]) s' m
  | .map i n :: l, T, s, m =>
    match hnext ok ptrEq prog id true m n with
    | none => none
    | some m' =>
      match RWMap.event prog m n with
      | [] => hsysPlay ok c prog l T s m'
      | [e] =>
        match hsync c prog s i e with
        | none => none
        | some s' => hsysPlay ok c prog l (T ++ [.map e]) s' m'
      | _ => none

theorem hsysPlay_hsys {l : List (Cmd K V)} : ∀ {T s m}, HSys ok c prog T s m → ∀ {T'}, hsysPlay ok c prog l T s m = some T' → ∃ s' m', HSys ok c prog T' s' m' := by
  induction l with
  | nil => intro T s m h T' h'; cases h'; exact ⟨_, _, h⟩
  | cons x l ih =>
    intro T s m h T' h'
    cases x with
    | loc i inp =>
      simp only [hsysPlay] at h'
      split at h'
      · cases h'
      · next hs => exact ih (h.loc hs) h'
    | map i n =>
      simp only [hsysPlay] at h'
      split at h'
      · cases h'
      · next hm =>
        split at h'
        · next he => exact ih (h.tau (fun l => .refl l) hm he) h'
        · next he =>
          split at h'
          · cases h'
          · next hs => exact ih (h.sync (fun l => .refl l) hm he hs) h'
        · cases h'

/-- Key 7 cannot be hashed. -/
def notSeven (k : Nat) : Bool := k != 7

def hashCalls : Nat → RWMap.Op Nat Nat
  | 0 => .swap 1 0
  | 1 => .swap 7 1
  | 2 => .load 1
  | 3 => .load 7
  | _ => .range

def hashCmds : List (Cmd Nat Nat) :=
  [.loc 0 (.call (.store 1 8 10000000)), .loc 0 (.time 100000000)] ++ maps 10 0 0 ++ [.loc 0 .go] ++
  [.loc 1 (.call (.store 7 9 10000000)), .loc 1 (.time 101000000)] ++ maps 4 1 1 ++
  [.loc 2 (.call (.load 7))] ++ maps 3 2 3 ++ [.loc 2 .go] ++ [.loc 1 .go] ++
  [.loc 2 (.call .range)] ++ maps 7 2 4 ++ [.loc 2 (.time 105000000), .loc 2 .go, .loc 2 .go, .loc 2 (.fFin (some true))] ++ maps 2 2 4 ++ [.loc 2 .go]

/-- `Store(7, 9)` and `Load(7)` panic; `Range` finds what was stored with key 1. -/
theorem exHash : (hsysPlay notSeven (cfg true) hashCalls hashCmds [] .init .init).map log =
    some [.call 0 (.store 1 8 10000000), .mk 0 0 8 100000000 10000000, .ret 0 .unit,
      .call 1 (.store 7 9 10000000), .mk 1 1 9 101000000 10000000, .call 2 (.load 7), .ret 2 .panicked, .ret 1 .panicked,
      .call 2 .range, .clock 2 105000000, .seen 2 0, .yield 2 1 0, .yieldEnd 2 (some true), .ret 2 .unit] := by rfl

/-- The same without the calls that panic. -/
theorem exHash_hide : (hsysPlay notSeven (cfg true) hashCalls hashCmds [] .init .init).map (fun T => log (hide notSeven hashCalls T)) =
    some [.call 0 (.store 1 8 10000000), .mk 0 0 8 100000000 10000000, .ret 0 .unit,
      .call 1 (.newEntry 9 10000000), .mk 1 1 9 101000000 10000000, .ret 1 (.ptr 1),
      .call 2 .range, .clock 2 105000000, .seen 2 0, .yield 2 1 0, .yieldEnd 2 (some true), .ret 2 .unit] := by rfl

end Verif.SyncCache.Hash
