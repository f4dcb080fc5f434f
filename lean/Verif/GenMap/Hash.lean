import Verif.GenMap.Props
import Verif.Lib.Pan
/-!
# Maps with keys that cannot be hashed, and nil maps (C163)

With an interface as the type of keys, every access to a map with a key that cannot be hashed (a slice, say) panics, also if the map is empty or nil. A panic leaves
a state behind; the program may recover and go on.
-/
namespace Verif.GenMap.Hash
open Verif.GenMap.Spec
variable {K V : Type} [DecidableEq K] [Inhabited V]

/-- The maps, and how often `newFunc` has been called (genmap.go:77). -/
structure Mem (K V : Type) where
  m : MMem K V
  calls : Nat

variable (bad : K → Bool) (ω : Oracle K V)

/-- `m[k]`. -/
def look (r : MRef) (k : K) : Pan (Mem K V) (V × Bool) := if bad k then Pan.raise else Pan.read fun s => GenMap.read s.m r k

/-- `m[k] = v`. -/
def put (r : MRef) (k : K) (v : V) : Pan (Mem K V) Unit := if bad k then Pan.raise else Pan.try_ fun s => (s.m.store r k v).map fun m => (⟨m, s.calls⟩, ())

/-- `delete(m, k)`. -/
def del (r : MRef) (k : K) : Pan (Mem K V) Unit := if bad k then Pan.raise else Pan.change fun s => ⟨s.m.delete r k, s.calls⟩

/-- `Load`: genmap.go:21-24. -/
def load (r : MRef) (k : K) : Pan (Mem K V) (V × Bool) := look bad r k

/-- `Store`: genmap.go:26-29. -/
def store (r : MRef) (k : K) (v : V) : Pan (Mem K V) MRef := do
  put bad r k v
  pure r

/-- `Delete`: genmap.go:31-34. -/
def delete (r : MRef) (k : K) : Pan (Mem K V) MRef := do
  del bad r k
  pure r

/-- `LoadOrStore`: genmap.go:63-70. -/
def loadOrStore (r : MRef) (k : K) (v : V) : Pan (Mem K V) (V × Bool) := do
  let (actual, loaded) ← look bad r k
  if loaded then pure (actual, loaded)
  else
    put bad r k v
    pure (actual, loaded)

/-- `LoadOrStoreFunc`: genmap.go:72-80. -/
def loadOrStoreFunc (r : MRef) (k : K) (new : V) : Pan (Mem K V) (V × Bool) := do
  let (actual, loaded) ← look bad r k
  if loaded then pure (actual, loaded)
  else
    Pan.change fun s => ⟨s.m, s.calls + 1⟩
    put bad r k new
    pure (new, loaded)

/-- `LoadAndDelete`: genmap.go:82-88. -/
def loadAndDelete (r : MRef) (k : K) : Pan (Mem K V) (V × Bool) := do
  let (v, loaded) ← look bad r k
  if loaded then
    del bad r k
    pure (v, loaded)
  else pure (v, loaded)

/-- `LoadAndStore`: genmap.go:90-94. -/
def loadAndStore (r : MRef) (k : K) (v : V) : Pan (Mem K V) (V × Bool) := do
  let (actual, loaded) ← look bad r k
  put bad r k v
  pure (actual, loaded)

/-- The loop of `maps.Copy`: `dst[k] = v`. -/
def putAll (r : MRef) : List (K × V) → Pan (Mem K V) Unit
  | [] => pure ()
  | p :: es => do
    put bad r p.1 p.2
    putAll r es

/-- `maps.Copy(dst, src)`. -/
def copy (dst src : MRef) : Pan (Mem K V) Unit := ⟨fun s =>
  let (m, es) := s.m.range ω src
  (putAll bad dst es).run ⟨m, s.calls⟩⟩

/-- As in `Model.lean`. -/
def plain (op : Op K V) : Pan (Mem K V) (Res K V) := Pan.try_ fun s => (GenMap.exec ω s.m op).map fun x => (⟨x.1, s.calls⟩, x.2)

/-- A call. The loops other than that of `maps.Copy` access maps only with keys of maps, which can be hashed (`C163_map`), as in `Model.lean`. -/
def exec : Op K V → Pan (Mem K V) (Res K V)
  | .load r k => do let (v, ok) ← load bad r k; pure (.found v ok)
  | .delete r k => do let r ← delete bad r k; pure (.map r)
  | .loadAndDelete r k => do let (v, ok) ← loadAndDelete bad r k; pure (.found v ok)
  | .store r k v => do let r ← store bad r k v; pure (.map r)
  | .loadOrStoreFunc r k v => do let (v, ok) ← loadOrStoreFunc bad r k v; pure (.found v ok)
  | .loadAndStore r k v => do let (v, ok) ← loadAndStore bad r k v; pure (.found v ok)
  | .copyFrom r src => do copy bad ω r src; pure (.map r)
  | .copyTo r dst => do copy bad ω dst r; pure (.map r)
  | .clone r => do
    let n ← Pan.try_ fun s => let (m, n) := new s.m; some (⟨m, s.calls⟩, n)
    copy bad ω n r
    pure (.map n)
  | .new => plain ω .new
  | .len r => plain ω (.len r)
  | .keys r => plain ω (.keys r)
  | .values r => plain ω (.values r)
  | .clear r => plain ω (.clear r)
  | .deleteFunc r f => plain ω (.deleteFunc r f)
  | .equalFunc r r2 eq => plain ω (.equalFunc r r2 eq)
  | .range r go => plain ω (.range r go)

/-! ## Specification -/

/-- The key a call is made with. -/
def keyOf : Op K V → Option K
  | .load _ k | .delete _ k | .loadAndDelete _ k | .store _ k _ | .loadOrStoreFunc _ k _ | .loadAndStore _ k _ => some k
  | _ => none

/-- The call puts something into a nil map. -/
def NilWrite (s : St K V) : Op K V → Prop
  | .store r _ _ | .loadOrStoreFunc r _ _ | .loadAndStore r _ _ => r = none
  | .copyFrom r src => r = none ∧ ∃ k v, s.get src k = some v
  | .copyTo r dst => dst = none ∧ ∃ k v, s.get r k = some v
  | _ => False

/-- The maps a call uses. -/
def refs : Op K V → List MRef
  | .new => []
  | .len a | .keys a | .values a | .clone a | .clear a | .load a _ | .delete a _ | .loadAndDelete a _ | .deleteFunc a _ | .range a _
  | .store a _ _ | .loadOrStoreFunc a _ _ | .loadAndStore a _ _ => [a]
  | .copyFrom a t | .copyTo a t | .equalFunc a t _ => [a, t]

/-- A handle the program was given. -/
def Has (tr : List (Op K V × Option (Res K V))) (h : MRef) : Prop := h = none ∨ ∃ c ∈ tr, c.2 = some (.map h)

/-- The calls of a program with what they return (`none`: panic), that uses only handles it was given. -/
inductive MRun : List (Op K V × Option (Res K V)) → Mem K V → Prop
  | nil : MRun [] ⟨MMem.empty, 0⟩
  | snoc {tr s op o s'} : MRun tr s → (∀ r ∈ refs op, Has tr r) → (exec bad ω op).run s = (s', o) → MRun (tr ++ [(op, o)]) s'

/-- The calls of a program on partial functions: a call panics if its key cannot be hashed or it puts something into a nil map, and then nothing changes. -/
inductive SRun : List (Op K V × Option (Res K V)) → St K V → Prop
  | nil : SRun [] St.empty
  | panic {tr s op} : SRun tr s → (∀ r ∈ refs op, Has tr r) → (∃ k, keyOf op = some k ∧ bad k = true) ∨ NilWrite s op → SRun (tr ++ [(op, none)]) s
  | ret {tr s op r s'} : SRun tr s → (∀ r ∈ refs op, Has tr r) → (∀ k, keyOf op = some k → bad k = false) → ¬ NilWrite s op → s.Step op r s' →
      SRun (tr ++ [(op, some r)]) s'

/-! ## Calls with a key that cannot be hashed -/

variable {bad ω} {s s' : Mem K V} {σ σ' : St K V} {r : MRef} {k : K} {v : V} {op : Op K V}

theorem run_look : (look bad r k).run s = (s, if bad k then none else some (GenMap.read s.m r k)) := by
  unfold look; split <;> rfl

omit [Inhabited V] in
theorem run_put : (put bad r k v).run s = if bad k then (s, none) else match s.m.store r k v with
    | some m => (⟨m, s.calls⟩, some ())
    | none => (s, none) := by
  unfold put; split
  · rfl
  · simp only [Pan.try_]; cases s.m.store r k v <;> rfl

omit [Inhabited V] in
theorem run_del : (del bad r k).run s = if bad k then (s, none) else (⟨s.m.delete r k, s.calls⟩, some ()) := by
  unfold del; split <;> rfl

/-- **C163**: a call with a key that cannot be hashed panics and changes nothing; `newFunc` is not called. -/
theorem C163_panics (hk : bad k = true) (h : keyOf op = some k) : (exec bad ω op).run s = (s, none) := by
  cases op <;> simp only [keyOf, reduceCtorEq, Option.some.injEq] at h <;> subst h <;>
    simp only [exec, load, delete, loadAndDelete, store, loadOrStoreFunc, loadAndStore, Pan.run_bind, run_look, run_put, run_del, hk, if_true]

theorem C163_panics_loadOrStore (hk : bad k = true) : (loadOrStore bad r k v).run s = (s, none) := by
  simp only [loadOrStore, Pan.run_bind, run_look, hk, if_true]

/-- Otherwise as in C50, and a panic if the map is nil. -/
theorem C163_loadOrStore (hk : bad k = false) (m : MMem K V) (c : Nat) :
    (loadOrStore bad r k v).run ⟨m, c⟩ = match GenMap.loadOrStore m r k v with
      | some (m', x) => (⟨m', c⟩, some x)
      | none => (⟨m, c⟩, none) := by
  simp only [loadOrStore, GenMap.loadOrStore, GenMap.load, Pan.run_bind, run_look, hk, Bool.false_eq_true, if_false]
  rcases e : read m r k with ⟨x, _ | _⟩
  · simp only [Bool.false_eq_true, if_false, Pan.run_bind, run_put, hk]
    cases m.store r k v <;> rfl
  · rfl

/-! ## Other calls -/

omit [Inhabited V] in
theorem putAll_ok {es : List (K × V)} (hb : ∀ p ∈ es, bad p.1 = false) {m m' : MMem K V} {c : Nat}
    (h : es.foldlM (fun m p => m.store r p.1 p.2) m = some m') : (putAll bad r es).run ⟨m, c⟩ = (⟨m', c⟩, some ()) := by
  induction es generalizing m with
  | nil => cases h; rfl
  | cons p es ih =>
    simp only [List.foldlM_cons, Option.bind_eq_bind, Option.bind_eq_some_iff] at h
    obtain ⟨m1, h1, h2⟩ := h
    simp only [putAll, Pan.run_bind, run_put, hb p (List.mem_cons_self ..), h1, Bool.false_eq_true, if_false]
    exact ih (fun q hq => hb q (List.mem_cons_of_mem _ hq)) h2

omit [Inhabited V] in
theorem putAll_nil {es : List (K × V)} (hne : es ≠ []) : (putAll bad none es).run s = (s, none) := by
  cases es with
  | nil => exact absurd rfl hne
  | cons p es =>
    simp only [putAll, Pan.run_bind, run_put, MMem.store, ite_self]

/-- Keys in the maps can be hashed. -/
def Clean (bad : K → Bool) (σ : St K V) : Prop := ∀ r k v, σ.ok r → σ.get r k = some v → bad k = false

omit [DecidableEq K] in
theorem Clean.step (hc : Clean bad σ) (ho : ∀ r ∈ refs op, σ.ok r) (hk : ∀ k, keyOf op = some k → bad k = false) {x : Res K V} (hs : σ.Step op x σ') : Clean bad σ' := by
  have bec : ∀ {r : MRef} {g : K → Option V}, σ.Becomes r g σ' → (∀ k v, g k = some v → bad k = false) → Clean bad σ' := by
    intro r g hb hg r' k v hr' hv
    cases r' with
    | none => cases hv
    | some a =>
      by_cases e : some a = r
      · exact hg k v (by rw [← hb.2.2 a e]; exact hv)
      · refine hc (some a) k v ?_ ?_
        · show σ.alive a; rw [← hb.1]; exact hr'
        · show σ.val a k = some v; rw [← hb.2.1 a e]; exact hv
  have cre : ∀ {r : MRef} {g : K → Option V}, σ.Creates r g σ' → (∀ k v, g k = some v → bad k = false) → Clean bad σ' := by
    rintro r g ⟨n, rfl, h1, h2, h3, h4⟩ hg r' k v hr' hv
    cases r' with
    | none => cases hv
    | some a =>
      rcases (h2 a).1 hr' with rfl | ha
      · exact hg k v (by rw [← h4]; exact hv)
      · exact hc (some a) k v ha (by show σ.val a k = some v; rw [← h3 a ha]; exact hv)
  have up : ∀ {r : MRef} {k : K} {o : Option V} {g : K → Option V}, σ.ok r → bad k = false → Upd (σ.get r) k o g → ∀ k' v, g k' = some v → bad k' = false := by
    intro r k o g hr hb hu k' v hv
    by_cases e : k' = k
    · rw [e]; exact hb
    · exact hc r k' v hr (by rw [← hu.2 k' e]; exact hv)
  cases op <;> simp only [refs, List.mem_cons, List.not_mem_nil, or_false, forall_eq, forall_eq_or_imp, keyOf, Option.some.injEq, reduceCtorEq, false_imp_iff, implies_true, forall_eq'] at ho hk <;>
    simp only [St.Step] at hs
  case new => obtain ⟨n, -, h⟩ := hs; exact cre h (fun _ _ h => by cases h)
  case clone => obtain ⟨n, -, h⟩ := hs; exact cre h (fun k v h => hc _ k v ho h)
  case clear => exact bec hs.2 (fun _ _ h => by cases h)
  case delete => obtain ⟨-, g, h1, h2⟩ := hs; exact bec h2 (up ho hk h1)
  case loadAndDelete => obtain ⟨-, g, h1, h2⟩ := hs; exact bec h2 (up ho hk h1)
  case store => obtain ⟨-, g, h1, h2⟩ := hs; exact bec h2 (up ho hk h1)
  case loadAndStore => obtain ⟨-, g, h1, h2⟩ := hs; exact bec h2 (up ho hk h1)
  case loadOrStoreFunc =>
    split at hs
    · rw [hs.2]; exact hc
    · obtain ⟨-, g, h1, h2⟩ := hs; exact bec h2 (up ho hk h1)
  case copyFrom a src =>
    refine bec hs.2 fun k v h => ?_
    cases e : σ.get src k with
    | none => rw [e] at h; exact hc a k v ho.1 h
    | some w => exact hc src k w ho.2 e
  case copyTo a dst =>
    refine bec hs.2 fun k v h => ?_
    cases e : σ.get a k with
    | none => rw [e] at h; exact hc dst k v ho.2 h
    | some w => exact hc a k w ho.1 e
  case deleteFunc a f =>
    refine bec hs.2 fun k v h => ?_
    obtain ⟨h1, -⟩ := Option.filter_eq_some_iff.1 h
    exact hc a k v ho h1
  all_goals rw [hs.1]; exact hc

/-- The copying loop. -/
theorem copy_ok (hsim : Sim s.m σ) (hc : Clean bad σ) {dst src : MRef} (ho : σ.ok src) {m : MMem K V} (h : s.m.copy ω dst src = some m) :
    (copy bad ω dst src).run s = (⟨m, s.calls⟩, some ()) := by
  refine putAll_ok (fun p hp => ?_) h
  have hp := (ω.perm _ _).mem_iff.1 hp
  refine hc src p.1 p.2 ho ?_
  rw [hsim.get ho]
  exact aget_of_mem (hsim.wf.at_wf src) hp

theorem exec_ok (hsim : Sim s.m σ) (hc : Clean bad σ) (ho : ∀ r ∈ refs op, σ.ok r) (hk : ∀ k, keyOf op = some k → bad k = false) {m : MMem K V} {x : Res K V}
    (h : GenMap.exec ω s.m op = some (m, x)) : ∃ c, (exec bad ω op).run s = (⟨m, c⟩, some x) := by
  cases op <;> simp only [refs, List.mem_cons, List.not_mem_nil, or_false, forall_eq, forall_eq_or_imp, keyOf, Option.some.injEq, reduceCtorEq, false_imp_iff, implies_true, forall_eq'] at ho hk
  case load a k =>
    cases h
    exact ⟨s.calls, by simp only [exec, load, Pan.run_bind, run_look, hk]; rfl⟩
  case delete a k =>
    cases h
    exact ⟨s.calls, by simp only [exec, delete, Pan.run_bind, run_del, hk]; rfl⟩
  case loadAndDelete a k =>
    simp only [GenMap.exec, GenMap.loadAndDelete] at h
    simp only [exec, loadAndDelete, Pan.run_bind, run_look, hk, Bool.false_eq_true, if_false]
    refine ⟨s.calls, ?_⟩
    cases hr : (GenMap.read s.m a k).2 <;> simp only [hr, if_true, Bool.false_eq_true, if_false] at h ⊢ <;> cases h
    · rfl
    · simp only [Pan.run_bind, run_del, hk]; rfl
  case store a k v =>
    simp only [GenMap.exec, GenMap.store, Option.bind_eq_bind, Option.bind_eq_some_iff, Option.some.injEq, Prod.mk.injEq] at h
    obtain ⟨_, ⟨m1, h1, rfl⟩, rfl, rfl⟩ := h
    exact ⟨s.calls, by simp only [exec, store, Pan.run_bind, run_put, hk, h1]; rfl⟩
  case loadOrStoreFunc a k v =>
    simp only [GenMap.exec, GenMap.loadOrStoreFunc] at h
    simp only [exec, loadOrStoreFunc, Pan.run_bind, run_look, hk, Bool.false_eq_true, if_false]
    cases hr : (GenMap.read s.m a k).2 <;>
      simp only [hr, if_true, Bool.false_eq_true, if_false, Option.bind_eq_bind, Option.bind_eq_some_iff, Option.some.injEq, Prod.mk.injEq] at h ⊢
    · obtain ⟨_, ⟨m1, h1, rfl⟩, rfl, rfl⟩ := h
      exact ⟨s.calls + 1, by simp only [Pan.run_bind, Pan.run_change, run_put, hk, h1]; rfl⟩
    · obtain ⟨_, rfl, rfl, rfl⟩ := h
      exact ⟨s.calls, rfl⟩
  case loadAndStore a k v =>
    simp only [GenMap.exec, GenMap.loadAndStore, Option.bind_eq_bind, Option.bind_eq_some_iff, Option.some.injEq, Prod.mk.injEq] at h
    obtain ⟨_, ⟨m1, h1, rfl⟩, rfl, rfl⟩ := h
    exact ⟨s.calls, by simp only [exec, loadAndStore, Pan.run_bind, run_look, run_put, hk, h1, Bool.false_eq_true, if_false]; rfl⟩
  case copyFrom a src =>
    simp only [GenMap.exec, GenMap.copyFrom, Option.bind_eq_bind, Option.bind_eq_some_iff, Option.some.injEq, Prod.mk.injEq] at h
    obtain ⟨_, ⟨m1, h1, rfl⟩, rfl, rfl⟩ := h
    exact ⟨s.calls, by simp only [exec, Pan.run_bind, copy_ok hsim hc ho.2 h1]; rfl⟩
  case copyTo a dst =>
    simp only [GenMap.exec, GenMap.copyTo, Option.bind_eq_bind, Option.bind_eq_some_iff, Option.some.injEq, Prod.mk.injEq] at h
    obtain ⟨_, ⟨m1, h1, rfl⟩, rfl, rfl⟩ := h
    exact ⟨s.calls, by simp only [exec, Pan.run_bind, copy_ok hsim hc ho.1 h1]; rfl⟩
  case clone a =>
    simp only [GenMap.exec, GenMap.clone, GenMap.copyFrom, Option.bind_eq_bind, Option.bind_eq_some_iff, Option.some.injEq, Prod.mk.injEq] at h
    obtain ⟨_, ⟨m1, h1, rfl⟩, rfl, rfl⟩ := h
    refine ⟨s.calls, ?_⟩
    have hcp : (copy bad ω (GenMap.new s.m).2 a).run ⟨(GenMap.new s.m).1, s.calls⟩ = (⟨m1, s.calls⟩, some ()) := by
      refine putAll_ok (fun p hp => ?_) h1
      have hp := (ω.perm _ _).mem_iff.1 hp
      refine hc a p.1 p.2 ho ?_
      rw [hsim.get ho]
      have : (GenMap.new s.m).1.at a = s.m.at a := by
        cases a with
        | none => rfl
        | some a =>
          have : a < s.m.fresh := (hsim.alive a).1 ho
          simp only [GenMap.new, MMem.make, MMem.at]
          rw [if_neg (by omega)]
      rw [this] at hp
      exact aget_of_mem (hsim.wf.at_wf a) hp
    simp only [exec, Pan.run_bind, Pan.try_, hcp]
    rfl
  all_goals exact ⟨s.calls, by simp only [exec, plain, Pan.try_, h]; rfl⟩

omit [Inhabited V] in
theorem Sim.tick {m : MMem K V} (h : Sim m σ) (n : Nat) : Sim { m with tick := n } σ := ⟨⟨h.wf.wf, h.wf.unalloc⟩, h.alive, h.val⟩

omit [Inhabited V] in
theorem copy_nil (hsim : Sim s.m σ) {src : MRef} (ho : σ.ok src) (hne : ∃ k v, σ.get src k = some v) :
    (copy bad ω none src).run s = (⟨(s.m.range ω src).1, s.calls⟩, none) := by
  obtain ⟨k, v, hkv⟩ := hne
  rw [hsim.get ho] at hkv
  refine putAll_nil ?_
  have := (ω.perm s.m.tick _).mem_iff.2 (mem_of_aget hkv)
  intro e
  rw [show ω.order s.m.tick (s.m.at src) = [] from e] at this
  cases this

omit [Inhabited V] in
theorem copy_none (hsim : Sim s.m σ) {src : MRef} (ho : σ.ok src) (hne : ¬ ∃ k v, σ.get src k = some v) :
    (copy bad ω none src).run s = (⟨(s.m.range ω src).1, s.calls⟩, some ()) := by
  have : s.m.at src = [] := by
    rw [List.eq_nil_iff_forall_not_mem]
    intro p hp
    exact hne ⟨p.1, p.2, by rw [hsim.get ho]; exact aget_of_mem (hsim.wf.at_wf src) hp⟩
  have he : ω.order s.m.tick (s.m.at src) = [] := by rw [this]; exact List.perm_nil.1 (ω.perm _ _)
  show (putAll bad none (ω.order s.m.tick (s.m.at src))).run _ = _
  rw [he]; rfl

theorem hstep (hsim : Sim s.m σ) (hc : Clean bad σ) (ho : ∀ r ∈ refs op, σ.ok r) :
    (((∃ k, keyOf op = some k ∧ bad k = true) ∨ NilWrite σ op) ∧ ∃ s', (exec bad ω op).run s = (s', none) ∧ Sim s'.m σ) ∨
    ((∀ k, keyOf op = some k → bad k = false) ∧ ¬ NilWrite σ op ∧ ∃ s' x σ', (exec bad ω op).run s = (s', some x) ∧ σ.Step op x σ' ∧ Sim s'.m σ') := by
  by_cases hkk : ∃ k, keyOf op = some k ∧ bad k = true
  · obtain ⟨k, h1, h2⟩ := hkk
    exact .inl ⟨.inl ⟨k, h1, h2⟩, s, C163_panics h2 h1, hsim⟩
  have hk : ∀ k, keyOf op = some k → bad k = false := fun k h => by
    cases e : bad k with
    | false => rfl
    | true => exact absurd ⟨k, h, e⟩ hkk
  clear hkk
  by_cases hv : Valid σ.ok op
  · obtain ⟨m', x, σ', h1, h2, h3⟩ := sim_step ω hsim op hv
    obtain ⟨c, h4⟩ := exec_ok hsim hc ho hk h1
    refine .inr ⟨hk, fun hn => ?_, _, x, σ', h4, h2, h3⟩
    cases op <;> simp only [NilWrite] at hn <;> simp only [Valid] at hv
    all_goals first | exact hv.2 hn | exact hv.2.1 hn.1 | exact hv.2.2 hn.1
  cases op <;> simp only [Valid] at hv <;>
    simp only [refs, List.mem_cons, List.not_mem_nil, or_false, forall_eq, forall_eq_or_imp, keyOf, Option.some.injEq, reduceCtorEq, false_imp_iff, implies_true, forall_eq'] at ho hk
  case store a k v =>
    have : a = none := Classical.byContradiction fun h => hv ⟨ho, h⟩
    subst this
    exact .inl ⟨.inr rfl, s, by simp only [exec, store, Pan.run_bind, run_put, hk, MMem.store, ite_self], hsim⟩
  case loadAndStore a k v =>
    have : a = none := Classical.byContradiction fun h => hv ⟨ho, h⟩
    subst this
    exact .inl ⟨.inr rfl, s, by simp only [exec, loadAndStore, Pan.run_bind, run_look, run_put, hk, MMem.store, ite_self, Bool.false_eq_true, if_false], hsim⟩
  case loadOrStoreFunc a k v =>
    have : a = none := Classical.byContradiction fun h => hv ⟨ho, h⟩
    subst this
    exact .inl ⟨.inr rfl, ⟨s.m, s.calls + 1⟩, by
      simp only [exec, loadOrStoreFunc, Pan.run_bind, Pan.run_change, run_look, run_put, hk, GenMap.read, MMem.at, aget, MMem.store, ite_self, Bool.false_eq_true, if_false], hsim⟩
  case copyFrom a src =>
    have : a = none := Classical.byContradiction fun h => hv ⟨ho.1, h, ho.2⟩
    subst this
    by_cases hne : ∃ k v, σ.get src k = some v
    · exact .inl ⟨.inr ⟨rfl, hne⟩, ⟨(s.m.range ω src).1, s.calls⟩, (by simp only [exec, Pan.run_bind, copy_nil hsim ho.2 hne]), hsim.tick _⟩
    · refine .inr ⟨fun _ h => ?_, fun h => hne h.2, ⟨(s.m.range ω src).1, s.calls⟩, Res.map none, σ, ?_, ⟨rfl, rfl, fun _ _ => rfl, fun _ h => ?_⟩, hsim.tick _⟩
      · cases h
      · simp only [exec, Pan.run_bind, copy_none hsim ho.2 hne]; rfl
      · cases h
  case copyTo a dst =>
    have : dst = none := Classical.byContradiction fun h => hv ⟨ho.1, ho.2, h⟩
    subst this
    by_cases hne : ∃ k v, σ.get a k = some v
    · exact .inl ⟨.inr ⟨rfl, hne⟩, ⟨(s.m.range ω a).1, s.calls⟩, (by simp only [exec, Pan.run_bind, copy_nil hsim ho.1 hne]), hsim.tick _⟩
    · refine .inr ⟨fun _ h => ?_, fun h => hne h.2, ⟨(s.m.range ω a).1, s.calls⟩, Res.map a, σ, ?_, ⟨rfl, rfl, fun _ _ => rfl, fun _ h => ?_⟩, hsim.tick _⟩
      · cases h
      · simp only [exec, Pan.run_bind, copy_none hsim ho.1 hne]; rfl
      · cases h
  all_goals exact absurd (by first | exact ho | trivial) hv

omit [DecidableEq K] in
theorem given {tr : List (Op K V × Option (Res K V))} (h : SRun bad tr σ) : ∀ r, Has tr r → σ.ok r := by
  have old : ∀ {tr : List (Op K V × Option (Res K V))} {σ σ' : St K V} {op o}, (∀ r, Has tr r → σ.ok r) → (∀ a, σ.alive a → σ'.alive a) → (∀ r, o = some (.map r) → σ'.ok r) →
      ∀ r, Has (tr ++ [(op, o)]) r → σ'.ok r := by
    intro tr σ σ' op o ih ha hn r hr
    rcases hr with rfl | ⟨c, hc, hcr⟩
    · trivial
    · rcases List.mem_append.1 hc with hc | hc
      · have := ih r (.inr ⟨c, hc, hcr⟩)
        cases r with
        | none => trivial
        | some a => exact ha a this
      · rw [List.mem_singleton] at hc
        subst hc
        exact hn r hcr
  induction h with
  | nil =>
    rintro r (rfl | ⟨c, hc, -⟩)
    · trivial
    · cases hc
  | panic _ _ _ ih => exact old ih (fun _ h => h) (fun _ h => by cases h)
  | @ret tr s op x s' _ ho _ _ hs ih =>
    have bec : ∀ {r : MRef} {g : K → Option V}, s.Becomes r g s' → ∀ a, s.alive a → s'.alive a := fun hb a h => by rw [hb.1]; exact h
    have bok : ∀ {r r' : MRef} {g : K → Option V}, s.Becomes r g s' → s.ok r' → s'.ok r' := fun {r r' g} hb h => by
      cases r' with
      | none => trivial
      | some a => exact bec hb a h
    have cre : ∀ {r : MRef} {g : K → Option V}, s.Creates r g s' → (∀ a, s.alive a → s'.alive a) ∧ s'.ok r := by
      rintro r g ⟨n, rfl, h1, h2, -⟩
      exact ⟨fun a h => (h2 a).2 (.inr h), (h2 n).2 (.inl rfl)⟩
    have fnd : ∀ {o : Option V} {x : Res K V} {r : MRef}, Found o x → some x ≠ some (.map r) := by
      intro o x r hf e
      cases e
      cases o <;> cases hf
    have ho : ∀ r ∈ refs op, s.ok r := fun r h => ih r (ho r h)
    cases op <;> simp only [St.Step] at hs
    case new =>
      obtain ⟨n, rfl, h⟩ := hs
      exact old ih (cre h).1 (fun r e => by cases e; exact (cre h).2)
    case clone =>
      obtain ⟨n, rfl, h⟩ := hs
      exact old ih (cre h).1 (fun r e => by cases e; exact (cre h).2)
    case loadAndDelete => obtain ⟨h, g, -, h2⟩ := hs; exact old ih (bec h2) (fun r e => absurd e (fnd h))
    case loadAndStore => obtain ⟨h, g, -, h2⟩ := hs; exact old ih (bec h2) (fun r e => absurd e (fnd h))
    case load => obtain ⟨rfl, h⟩ := hs; exact old ih (fun _ h => h) (fun r e => absurd e (fnd h))
    case loadOrStoreFunc =>
      split at hs
      · obtain ⟨rfl, rfl⟩ := hs; exact old ih (fun _ h => h) (fun r e => by cases e)
      · obtain ⟨rfl, g, -, h2⟩ := hs; exact old ih (bec h2) (fun r e => by cases e)
    case store => obtain ⟨rfl, g, -, h2⟩ := hs; exact old ih (bec h2) (fun r e => by cases e; exact bok h2 (ho _ (by simp [refs])))
    case delete => obtain ⟨rfl, g, -, h2⟩ := hs; exact old ih (bec h2) (fun r e => by cases e; exact bok h2 (ho _ (by simp [refs])))
    case clear => obtain ⟨rfl, h2⟩ := hs; exact old ih (bec h2) (fun r e => by cases e; exact bok h2 (ho _ (by simp [refs])))
    case copyFrom => obtain ⟨rfl, h2⟩ := hs; exact old ih (bec h2) (fun r e => by cases e; exact bok h2 (ho _ (by simp [refs])))
    case copyTo => obtain ⟨rfl, h2⟩ := hs; exact old ih (bec h2) (fun r e => by cases e; exact bok h2 (ho _ (by simp [refs])))
    case deleteFunc => obtain ⟨rfl, h2⟩ := hs; exact old ih (bec h2) (fun r e => by cases e)
    case len => obtain ⟨rfl, es, -, rfl⟩ := hs; exact old ih (fun _ h => h) (fun r e => by cases e)
    case keys => obtain ⟨rfl, es, -, rfl⟩ := hs; exact old ih (fun _ h => h) (fun r e => by cases e)
    case values => obtain ⟨rfl, es, -, rfl⟩ := hs; exact old ih (fun _ h => h) (fun r e => by cases e)
    case equalFunc => obtain ⟨rfl, es, rfl, -⟩ := hs; exact old ih (fun _ h => h) (fun r e => by cases e)
    case range =>
      obtain ⟨rfl, es, -, ⟨rfl, -⟩ | ⟨_, _, _, -, -, -, rfl⟩⟩ := hs <;> exact old ih (fun _ h => h) (fun r e => by cases e)

/-- **C163**: for every program that uses only handles it was given (nil included), with any keys, and for all iteration orders: the calls return or panic as they do
on partial functions, where a call panics exactly if its key cannot be hashed or if it puts something into a nil map, and then changes nothing. -/
theorem C163_map {tr : List (Op K V × Option (Res K V))} (h : MRun bad ω tr s) : ∃ σ, SRun bad tr σ ∧ ∀ r k v, σ.ok r → σ.get r k = some v → bad k = false := by
  suffices ∃ σ, SRun bad tr σ ∧ Sim s.m σ ∧ Clean bad σ from let ⟨σ, h1, _, h3⟩ := this; ⟨σ, h1, h3⟩
  induction h with
  | nil => exact ⟨_, .nil, ⟨MMem.WF.empty, fun a => by simp [St.empty, MMem.empty], fun _ h => h.elim⟩, fun r k v _ h => by cases r <;> cases h⟩
  | snoc _ ho he ih =>
    obtain ⟨σ, h1, h2, h3⟩ := ih
    have ho' := fun r h => given h1 r (ho r h)
    rcases hstep h2 h3 ho' with ⟨hp, s1, e, hs⟩ | ⟨hk, hn, s1, x, σ', e, hst, hs⟩
    · rw [e] at he; cases he
      exact ⟨σ, .panic h1 ho hp, hs, h3⟩
    · rw [e] at he; cases he
      exact ⟨σ', .ret h1 ho hk hn hst, hs, h3.step ho' hk hst⟩

/-- The key 9 cannot be hashed: `a := New(); a.Store(1, 10); a.Store(9, 1)` panics, `a.LoadOrStoreFunc(9, f)` panics without a call of `f`, `a.Len()` is 1; `nil.Store(1, 1)`
panics, `nil.CopyFrom(nil)` does not. -/
example : ∃ s, s.calls = 0 ∧ MRun (fun k => k == 9) backwards [(.new, some (.map (some 0))), (.store (some 0) 1 10, some (.map (some 0))), (.store (some 0) 9 1, none),
    (.loadOrStoreFunc (some 0) 9 5, none), (.len (some 0), some (.int 1)), (.store none 1 1, none), (.copyFrom none none, some (.map none))] s := by
  refine ⟨_, ?_, .snoc (tr := [_, _, _, _, _, _]) (.snoc (tr := [_, _, _, _, _]) (.snoc (tr := [_, _, _, _]) (.snoc (tr := [_, _, _]) (.snoc (tr := [_, _]) (.snoc (tr := [_])
    (.snoc .nil ?_ rfl) ?_ rfl) ?_ rfl) ?_ rfl) ?_ rfl) ?_ rfl) ?_ rfl⟩
  · rfl
  all_goals simp [refs, Has]

end Verif.GenMap.Hash
