import Verif.SyncCache.Model
import Verif.Refresh.Trace
/-!
# Steps, one by one; traces, and what they say about the state
-/
namespace Verif.SyncCache
open Verif.Refresh (get_snoc get_lt get_keep get_new)
variable {K V : Type} [DecidableEq K]

/-- The steps of thread `i`, one constructor per way to make one. -/
inductive Step (c : Cfg V) (hist : List (Map K)) (s : State K V) (i : Nat) : State K V → Ev K V → Prop where
  | call (op : Op K V) : s.pc i = .idle → Step c hist s i (s.go i (enter op)) (.call i op)
  | stMk {k v d} (now : Int) : s.pc i = .stMk k v d →
      Step c hist s i ((s.mk_ v now d).go i (.stPut k s.ents.length)) (.mk i s.ents.length v now d)
  | stPut {k a} : s.pc i = .stPut k a → Step c hist s i ({ s with m := s.m.set k a }.go i (.done .unit)) (.put i k a)
  | ldNone {k x} : s.pc i = .ldGet k x → s.m.get k = none →
      Step c hist s i (s.go i (.done (match x with | none => .nil | some _ => .bool false))) (.tau i)
  | ldSome {k x a} : s.pc i = .ldGet k x → s.m.get k = some a →
      Step c hist s i (s.go i (.chk k a (match x with | none => .load | some v => .cvd v))) (.tau i)
  | chk {k a st} (now : Int) : s.pc i = .chk k a st → Step c hist s i (s.go i (.chkExp k a now st)) (.clock i now)
  | chkNone {k a now st} : s.pc i = .chkExp k a now st → s.ents[a]? = none → Step c hist s i (s.go i (.done .panicked)) (.tau i)
  | chkDead {k a now st x} : s.pc i = .chkExp k a now st → s.ents[a]? = some x → ms now > x.2 →
      Step c hist s i (s.go i (st.dead c k a)) (.seen i a)
  | chkLive {k a now st x} : s.pc i = .chkExp k a now st → s.ents[a]? = some x → ¬ ms now > x.2 →
      Step c hist s i (s.go i (st.live c k a)) (.seen i a)
  | losMk {k v d} (now : Int) : s.pc i = .losMk k v d →
      Step c hist s i ((s.mk_ v now d).go i (.losTry k v d s.ents.length)) (.mk i s.ents.length v now d)
  | losPut {k v d a} : s.pc i = .losTry k v d a → s.m.get k = none →
      Step c hist s i ({ s with m := s.m.set k a }.go i (.done (.entry a false))) (.put i k a)
  | losGet {k v d a b} : s.pc i = .losTry k v d a → s.m.get k = some b → Step c hist s i (s.go i (.chk k b (.los v d))) (.tau i)
  | delNone {k} : s.pc i = .delTry k → s.m.get k = none → Step c hist s i (s.go i (.done .unit)) (.tau i)
  | delSome {k a} : s.pc i = .delTry k → s.m.get k = some a →
      Step c hist s i ({ s with m := s.m.erase k }.go i (afterDel c a .del)) (.del i k a)
  | ladNone {k} : s.pc i = .ladTry k → s.m.get k = none → Step c hist s i (s.go i (.done .nil)) (.tau i)
  | ladSome {k a} : s.pc i = .ladTry k → s.m.get k = some a →
      Step c hist s i ({ s with m := s.m.erase k }.go i (.chk k a .lad)) (.del i k a)
  | cadDel {k a aft} : s.pc i = .cad k a aft → s.m.get k = some a →
      Step c hist s i ({ s with m := s.m.erase k }.go i (afterDel c a aft)) (.del i k a)
  | cadFail {k a aft} : s.pc i = .cad k a aft → s.m.get k ≠ some a → Step c hist s i (s.go i (aft.next false)) (.tau i)
  | cbNone {a aft} : s.pc i = .cbCall a aft → s.ents[a]? = none → Step c hist s i (s.go i (.done .panicked)) (.tau i)
  | cbCall {a aft x} : s.pc i = .cbCall a aft → s.ents[a]? = some x → Step c hist s i (s.go i (.cbRun aft)) (.cb i x.1)
  | cbOk {aft} : s.pc i = .cbRun aft → Step c hist s i (s.go i (aft.next true)) (.cbEnd i true)
  | cbPanic {aft} : s.pc i = .cbRun aft → Step c hist s i (s.go i (.done .panicked)) (.cbEnd i false)
  | cvNone {k a v} : s.pc i = .cvEq k a v → s.ents[a]? = none → Step c hist s i (s.go i (.done .panicked)) (.tau i)
  | cvPanic {k a v x} : s.pc i = .cvEq k a v → s.ents[a]? = some x → c.eqv v x.1 = none → Step c hist s i (s.go i (.done .panicked)) (.tau i)
  | cvEq {k a v x} : s.pc i = .cvEq k a v → s.ents[a]? = some x → c.eqv v x.1 = some true → Step c hist s i (s.go i (.cad k a .cvd)) (.tau i)
  | cvNe {k a v x} : s.pc i = .cvEq k a v → s.ents[a]? = some x → c.eqv v x.1 = some false → Step c hist s i (s.go i (.done (.bool false))) (.tau i)
  | clrCb : s.pc i = .clr → c.hasCb = true → Step c hist s i (s.go i (.iStart .clear)) (.tau i)
  | clrWipe : s.pc i = .clr → c.hasCb = false → Step c hist s i ({ s with m := [] }.go i (.done .unit)) (.wipe i)
  | snap {kind} (ks : List K) : s.pc i = .iStart kind → ks.Nodup → (∀ x ∈ s.m, x.1 ∈ ks) →
      Step c hist s i (s.go i (.iter ⟨kind, ks, hist.length - 1⟩)) (.tau i)
  | iterEnd {kind st} : s.pc i = .iter ⟨kind, [], st⟩ → Step c hist s i (s.go i (.done .unit)) (.tau i)
  | iterNone {kind k ks st j m} : s.pc i = .iter ⟨kind, k :: ks, st⟩ → st ≤ j → hist[j]? = some m → m.get k = none →
      Step c hist s i (s.go i (.iter ⟨kind, ks, st⟩)) (.tau i)
  | iterSome {kind k ks st j m a} : s.pc i = .iter ⟨kind, k :: ks, st⟩ → st ≤ j → hist[j]? = some m → m.get k = some a →
      Step c hist s i (s.go i (Iter.visit ⟨kind, ks, st⟩ k a)) (.tau i)
  | tNone {k a now it} : s.pc i = .tChk k a now it → s.ents[a]? = none → Step c hist s i (s.go i (.done .panicked)) (.tau i)
  | tDead {k a now it x} : s.pc i = .tChk k a now it → s.ents[a]? = some x → now > x.2 →
      Step c hist s i (s.go i (.cad k a (.iter it))) (.seen i a)
  | tLive {k a now it x} : s.pc i = .tChk k a now it → s.ents[a]? = some x → ¬ now > x.2 → Step c hist s i (s.go i (.iter it)) (.seen i a)
  | fCall {k a it} : s.pc i = .fCall k a it → Step c hist s i (s.go i (.fRun it)) (.yield i k a)
  | fPanic {it} : s.pc i = .fRun it → Step c hist s i (s.go i (.done .panicked)) (.yieldEnd i none)
  | fMore {it} : s.pc i = .fRun it → Step c hist s i (s.go i (.iter it)) (.yieldEnd i (some true))
  | fStop {it} : s.pc i = .fRun it → Step c hist s i (s.go i (.done .unit)) (.yieldEnd i (some false))
  | tkOn : s.pc i = .tkReg → s.reg = true → Step c hist s i (s.go i .trNow) (.tau i)
  | tkOff : s.pc i = .tkReg → s.reg = false → Step c hist s i (s.go i (.done .unit)) (.tau i)
  | trNow (now : Int) : s.pc i = .trNow → Step c hist s i (s.go i (.iStart (.trim (ms now)))) (.clock i now)
  | regPut {b} : s.pc i = .regPut b → Step c hist s i ({ s with reg := b }.go i (.done .unit)) (.reg i b)
  | neMk {v d} (now : Int) : s.pc i = .neMk v d →
      Step c hist s i ((s.mk_ v now d).go i (.done (.ptr s.ents.length))) (.mk i s.ents.length v now d)
  | valNone {a} : s.pc i = .valGet a → s.ents[a]? = none → Step c hist s i (s.go i (.done .panicked)) (.tau i)
  | valSome {a x} : s.pc i = .valGet a → s.ents[a]? = some x → Step c hist s i (s.go i (.done (.val x.1))) (.tau i)
  | ieNow {a} (now : Int) : s.pc i = .ieNow a → Step c hist s i (s.go i (.ieChk a now)) (.clock i now)
  | ieNone {a now} : s.pc i = .ieChk a now → s.ents[a]? = none → Step c hist s i (s.go i (.done .panicked)) (.tau i)
  | ieSome {a now x} : s.pc i = .ieChk a now → s.ents[a]? = some x →
      Step c hist s i (s.go i (.done (.bool (decide (ms now > x.2))))) (.seen i a)
  | addNone {a d} : s.pc i = .addE a d → s.ents[a]? = none → Step c hist s i (s.go i (.done .panicked)) (.tau i)
  | addSome {a d x} : s.pc i = .addE a d → s.ents[a]? = some x →
      Step c hist s i ({ s with ents := s.ents.set a (x.1, x.2 + msd d) }.go i (.done .unit)) (.addExp i a d)
  | setNone {a t} : s.pc i = .setE a t → s.ents[a]? = none → Step c hist s i (s.go i (.done .panicked)) (.tau i)
  | setSome {a t x} : s.pc i = .setE a t → s.ents[a]? = some x →
      Step c hist s i ({ s with ents := s.ents.set a (x.1, ms t) }.go i (.done .unit)) (.setExp i a t)
  | ret {r} : s.pc i = .done r → Step c hist s i (s.go i .idle) (.ret i r)

variable {c : Cfg V} {hist : List (Map K)} {s s' : State K V} {i j : Nat} {inp : In K V} {e : Ev K V} {tr : List (Ev K V)} {k : K} {a : Nat}

theorem step_Step (h : step c hist s i inp = some (s', e)) : Step c hist s i s' e := by
  cases hpc : s.pc i <;> cases inp <;> simp only [step, hpc, reduceCtorEq, Option.some.injEq, Prod.mk.injEq] at h
  case iter.visit it j =>
    obtain ⟨kind, ks, st⟩ := it
    cases ks with
    | nil => simp at h
    | cons k ks =>
      simp only at h
      split at h
      · cases h
      · next hj =>
        split at h
        · cases h
        · next m hm =>
          split at h <;> (simp only [Option.some.injEq, Prod.mk.injEq] at h; obtain ⟨rfl, rfl⟩ := h)
          · next hg => exact .iterNone hpc (by omega) hm hg
          · next hg => exact .iterSome hpc (by omega) hm hg
  case iter.go it =>
    obtain ⟨kind, ks, st⟩ := it
    cases ks with
    | nil => simp only [Option.some.injEq, Prod.mk.injEq] at h; obtain ⟨rfl, rfl⟩ := h; exact .iterEnd hpc
    | cons k ks => simp at h
  case cvEq.go =>
    split at h <;> (simp only [Option.some.injEq, Prod.mk.injEq] at h; obtain ⟨rfl, rfl⟩ := h)
    · next hx => exact .cvNone hpc hx
    · next x hx =>
      split
      · next hv => exact .cvPanic hpc hx hv
      · next hv => exact .cvEq hpc hx hv
      · next hv => exact .cvNe hpc hx hv
  case fRun.fFin b =>
    obtain ⟨rfl, rfl⟩ := h
    rcases b with _ | _ | _
    · exact .fPanic hpc
    · exact .fStop hpc
    · exact .fMore hpc
  case cbRun.cbFin b =>
    obtain ⟨rfl, rfl⟩ := h
    cases b
    · exact .cbPanic hpc
    · exact .cbOk hpc
  case tkReg.go =>
    obtain ⟨rfl, rfl⟩ := h
    split
    · next h => exact .tkOn hpc h
    · next h => exact .tkOff hpc (by simpa using h)
  case chkExp.go =>
    split at h <;> (simp only [Option.some.injEq, Prod.mk.injEq] at h; obtain ⟨rfl, rfl⟩ := h)
    · next hx => exact .chkNone hpc hx
    · next x hx =>
      split
      · next hv => exact .chkDead hpc hx hv
      · next hv => exact .chkLive hpc hx hv
  case tChk.go =>
    split at h <;> (simp only [Option.some.injEq, Prod.mk.injEq] at h; obtain ⟨rfl, rfl⟩ := h)
    · next hx => exact .tNone hpc hx
    · next x hx =>
      split
      · next hv => exact .tDead hpc hx hv
      · next hv => exact .tLive hpc hx hv
  case valGet.go =>
    obtain ⟨rfl, rfl⟩ := h
    split
    · next h => exact .valNone hpc h
    · next h => exact .valSome hpc h
  case clr.go =>
    split at h <;> (simp only [Option.some.injEq, Prod.mk.injEq] at h; obtain ⟨rfl, rfl⟩ := h)
    · next h => exact .clrCb hpc h
    · next h => exact .clrWipe hpc (by simpa using h)
  case iStart.snap =>
    split at h
    · next h' => simp only [Option.some.injEq, Prod.mk.injEq] at h; obtain ⟨rfl, rfl⟩ := h; exact .snap _ hpc h'.1 h'.2
    · cases h
  case ldGet.go => 
    split at h <;> (simp only [Option.some.injEq, Prod.mk.injEq] at h; obtain ⟨rfl, rfl⟩ := h)
    · next h => exact .ldNone hpc h
    · next h => exact .ldSome hpc h
  case losTry.go => 
    split at h <;> (simp only [Option.some.injEq, Prod.mk.injEq] at h; obtain ⟨rfl, rfl⟩ := h)
    · next h => exact .losPut hpc h
    · next h => exact .losGet hpc h
  case delTry.go => 
    split at h <;> (simp only [Option.some.injEq, Prod.mk.injEq] at h; obtain ⟨rfl, rfl⟩ := h)
    · next h => exact .delNone hpc h
    · next h => exact .delSome hpc h
  case ladTry.go => 
    split at h <;> (simp only [Option.some.injEq, Prod.mk.injEq] at h; obtain ⟨rfl, rfl⟩ := h)
    · next h => exact .ladNone hpc h
    · next h => exact .ladSome hpc h
  case cad.go => 
    split at h <;> (simp only [Option.some.injEq, Prod.mk.injEq] at h; obtain ⟨rfl, rfl⟩ := h)
    · next h => exact .cadDel hpc h
    · next h => exact .cadFail hpc h
  case cbCall.go => 
    split at h <;> (simp only [Option.some.injEq, Prod.mk.injEq] at h; obtain ⟨rfl, rfl⟩ := h)
    · next h => exact .cbNone hpc h
    · next h => exact .cbCall hpc h
  case ieChk.go => 
    split at h <;> (simp only [Option.some.injEq, Prod.mk.injEq] at h; obtain ⟨rfl, rfl⟩ := h)
    · next h => exact .ieNone hpc h
    · next h => exact .ieSome hpc h
  case addE.go => 
    split at h <;> (simp only [Option.some.injEq, Prod.mk.injEq] at h; obtain ⟨rfl, rfl⟩ := h)
    · next h => exact .addNone hpc h
    · next h => exact .addSome hpc h
  case setE.go => 
    split at h <;> (simp only [Option.some.injEq, Prod.mk.injEq] at h; obtain ⟨rfl, rfl⟩ := h)
    · next h => exact .setNone hpc h
    · next h => exact .setSome hpc h
  all_goals obtain ⟨rfl, rfl⟩ := h
  case idle.call => exact .call _ hpc
  case stMk.time => exact .stMk _ hpc
  case stPut.go => exact .stPut hpc
  case chk.time => exact .chk _ hpc
  case losMk.time => exact .losMk _ hpc
  case fCall.go => exact .fCall hpc
  case trNow.time => exact .trNow _ hpc
  case regPut.go => exact .regPut hpc
  case neMk.time => exact .neMk _ hpc
  case ieNow.time => exact .ieNow _ hpc
  case done.go => exact .ret hpc

theorem Step.tid (h : Step c hist s i s' e) : e.tid = i := by cases h <;> rfl

theorem Step.other (h : Step c hist s i s' e) (hj : j ≠ i) : s'.pc j = s.pc j := by
  cases h <;> exact Function.update_of_ne hj _ _

theorem State.go_pc {pc : PC K V} : (s.go i pc).pc i = pc := Function.update_self _ _ _

/-! ## Maps -/

theorem Map.get_nil : Map.get ([] : Map K) k = none := rfl

theorem Map.get_erase {m : Map K} {k' : K} : (m.erase k').get k = if k' = k then none else m.get k := by
  unfold Map.get Map.erase
  induction m with
  | nil => simp
  | cons x m ih =>
    by_cases h1 : x.1 = k' <;> by_cases h2 : x.1 = k
    · have : k' = k := h1.symm.trans h2
      simp_all
    · simp_all
    · have : k' ≠ k := fun h => h1 (h2.trans h.symm)
      simp_all
    · by_cases h3 : k' = k <;> simp_all

theorem Map.get_set {m : Map K} {k' : K} : (m.set k' a).get k = if k' = k then some a else m.get k := by
  by_cases h : k' = k
  · simp [Map.set, Map.get, h]
  · have := Map.get_erase (m := m) (k := k) (k' := k')
    simp only [h, if_false] at this ⊢
    rw [← this]
    simp [Map.set, Map.get, h]

theorem Map.get_mem {m : Map K} (h : m.get k = some a) : (k, a) ∈ m := by
  simp only [Map.get, Option.map_eq_some_iff] at h
  obtain ⟨x, h1, rfl⟩ := h
  have := List.find?_some h1
  simp only [decide_eq_true_eq] at this
  rw [← this]
  exact List.mem_of_find?_eq_some h1

/-! ## Replaying -/

theorem content_snoc : content (tr ++ [e]) k = e.onKey k (content tr k) := by simp [content]
theorem expOf_snoc : expOf (tr ++ [e]) a = e.onExp a (expOf tr a) := by simp [expOf]

theorem take_snoc {z : Nat} (h : z ≤ tr.length) : (tr ++ [e]).take z = tr.take z := List.take_append_of_le_length h
theorem take_all : (tr ++ [e]).take tr.length = tr := by rw [take_snoc (Nat.le_refl _), List.take_length]
theorem take_full : (tr ++ [e]).take (tr.length + 1) = tr ++ [e] := List.take_of_length_le (by simp)
theorem take_next {n : Nat} (h : tr[n]? = some e) : tr.take (n + 1) = tr.take n ++ [e] := by
  rw [List.take_add_one, h]; rfl
theorem get_take {n m : Nat} : (tr.take m)[n]? = some e ↔ n < m ∧ tr[n]? = some e := by
  rw [List.getElem?_take]
  split <;> simp [*]

theorem Step.map (h : Step c hist s i s' e) (k : K) : s'.m.get k = e.onKey k (s.m.get k) := by
  cases h <;> simp only [State.go, Ev.onKey, Map.get_set, Map.get_erase, Map.get_nil, State.mk_]

/-- What a step does to the entries. -/
theorem Step.ent (h : Step c hist s i s' e) {x' : V × Int} (hx : s'.ents[a]? = some x') :
    (∃ x, s.ents[a]? = some x ∧ x'.1 = x.1 ∧ x'.2 = e.onExp a x.2) ∨
    (a = s.ents.length ∧ ∃ now d, e = .mk i a x'.1 now d ∧ x'.2 = ms (now + d)) := by
  have key : ∀ {v : V} {now d : Int}, (s.ents ++ [(v, ms (now + d))])[a]? = some x' →
      (∃ x, s.ents[a]? = some x ∧ x'.1 = x.1 ∧ x'.2 = (Ev.mk i s.ents.length v now d : Ev K V).onExp a x.2) ∨
      (a = s.ents.length ∧ ∃ now' d', (Ev.mk i s.ents.length v now d : Ev K V) = .mk i a x'.1 now' d' ∧ x'.2 = ms (now' + d')) := by
    intro v now d h
    rcases get_snoc.1 h with h1 | ⟨h1, rfl⟩
    · have := get_lt h1
      exact .inl ⟨x', h1, rfl, by simp only [Ev.onExp]; rw [if_neg (by omega)]⟩
    · exact .inr ⟨h1, now, d, by rw [h1], rfl⟩
  have key2 : ∀ {a' : Nat} {y y' : V × Int} {f : Int → Int}, (s.ents.set a' y')[a]? = some x' → s.ents[a']? = some y → y'.1 = y.1 → y'.2 = f y.2 →
      ∃ x, s.ents[a]? = some x ∧ x'.1 = x.1 ∧ x'.2 = if a' = a then f x.2 else x.2 := by
    intro a' y y' f h4 h1 h2 h3
    by_cases ha : a' = a
    · subst ha
      have := get_lt h1
      rw [List.getElem?_set_self this] at h4
      cases h4
      exact ⟨y, h1, h2, by simp [h3]⟩
    · rw [List.getElem?_set_ne ha] at h4
      exact ⟨x', h4, rfl, by simp [ha]⟩
  cases h
  case stMk => exact key hx
  case losMk => exact key hx
  case neMk => exact key hx
  case addSome h1 h2 => exact .inl (key2 (f := fun y => y + msd _) hx h2 rfl rfl)
  case setSome h1 h2 => exact .inl (key2 (f := fun _ => ms _) hx h2 rfl rfl)
  all_goals exact .inl ⟨x', hx, rfl, rfl⟩

theorem Step.ents_length (h : Step c hist s i s' e) : s.ents.length ≤ s'.ents.length := by
  cases h <;> simp [State.go, State.mk_]

theorem Step.mk (h : Step c hist s i s' e) {v : V} {now d : Int} (he : e = .mk j a v now d) :
    j = i ∧ a = s.ents.length ∧ s'.ents.length = s.ents.length + 1 := by
  cases h <;> cases he <;> simp [State.go, State.mk_]

/-- What the trace says about the state. -/
structure Glob (tr : List (Ev K V)) (hist : List (Map K)) (s : State K V) : Prop where
  map : ∀ k, s.m.get k = content tr k
  len : hist.length = tr.length + 1
  hist : ∀ (j : Nat) (m : Map K), hist[j]? = some m → ∀ k, m.get k = content (tr.take j) k
  exp : ∀ (a : Nat) (x : V × Int), s.ents[a]? = some x → x.2 = expOf tr a
  made : ∀ (a : Nat) (x : V × Int), s.ents[a]? = some x → Made tr a x.1
  bound : ∀ (n i a : Nat) (v : V) (now d : Int), tr[n]? = some (.mk i a v now d) → a < s.ents.length
  once : ∀ (n i a : Nat) (v : V) (now d : Int) (n' i' : Nat) (v' : V) (now' d' : Int), tr[n]? = some (.mk i a v now d) →
    tr[n']? = some (.mk i' a v' now' d') → n = n'

theorem Made.snoc {v : V} (h : Made tr a v) : Made (tr ++ [e]) a v := by
  obtain ⟨n, i, now, d, h⟩ := h
  exact ⟨n, i, now, d, get_keep h⟩

theorem Exec.glob (h : Exec c tr hist s) : Glob tr hist s := by
  induction h with
  | nil =>
    refine ⟨fun k => rfl, rfl, ?_, ?_, ?_, ?_, ?_⟩
    · intro j m hj k
      cases j with
      | zero => cases hj; rfl
      | succ j => simp at hj
    · intro a x h; simp [State.init] at h
    · intro a x h; simp [State.init] at h
    · intro n i a v now d h; simp at h
    · intro n i a v now d n' i' v' now' d' h; simp at h
  | snoc h1 h2 ih =>
    rename_i tr hist s i inp s' e
    have hs := step_Step h2
    have hmap : ∀ k, s'.m.get k = content (tr ++ [e]) k := fun k => by rw [hs.map, content_snoc, ih.map]
    refine ⟨hmap, ?_, ?_, ?_, ?_, ?_, ?_⟩
    · simp [ih.len]
    · intro j m hj k
      rcases get_snoc.1 hj with hj | ⟨hj', rfl⟩
      · have := get_lt hj
        rw [take_snoc (by have := ih.len; omega)]
        exact ih.hist j m hj k
      · rw [hj', ih.len, take_full]; exact hmap k
    · intro a x hx
      rw [expOf_snoc]
      rcases hs.ent hx with ⟨y, h3, h4, h5⟩ | ⟨h3, now, d, rfl, h5⟩
      · rw [h5, ih.exp a y h3]
      · rw [h5]; simp [Ev.onExp]
    · intro a x hx
      rcases hs.ent hx with ⟨y, h3, h4, h5⟩ | ⟨h3, now, d, rfl, h5⟩
      · rw [h4]; exact (ih.made a y h3).snoc
      · exact ⟨tr.length, i, now, d, get_new⟩
    · intro n j a v now d hn
      rcases get_snoc.1 hn with hn' | ⟨_, he⟩
      · exact Nat.lt_of_lt_of_le (ih.bound n j a v now d hn') hs.ents_length
      · obtain ⟨_, h3, h4⟩ := hs.mk he.symm
        omega
    · intro n j a v now d n' j' v' now' d' hn hn'
      rcases get_snoc.1 hn with hn1 | ⟨hn1, he⟩ <;> rcases get_snoc.1 hn' with hn2 | ⟨hn2, he'⟩
      · exact ih.once n j a v now d n' j' v' now' d' hn1 hn2
      · have := ih.bound _ _ _ _ _ _ hn1
        obtain ⟨_, h3, h4⟩ := hs.mk he'.symm
        omega
      · have := ih.bound _ _ _ _ _ _ hn2
        obtain ⟨_, h3, h4⟩ := hs.mk he.symm
        omega
      · omega

/-- Prefixes of executions. -/
theorem Exec.at (h : Exec c tr hist s) {n : Nat} (hn : tr[n]? = some e) :
    ∃ s0 inp s1, Exec c (tr.take n) (hist.take (n + 1)) s0 ∧ step c (hist.take (n + 1)) s0 e.tid inp = some (s1, e) ∧
      Exec c (tr.take (n + 1)) (hist.take (n + 2)) s1 := by
  induction h with
  | nil => simp at hn
  | snoc h1 h2 ih =>
    rename_i tr hist s i inp s' e'
    have hl := h1.glob.len
    rcases get_snoc.1 hn with hn' | ⟨rfl, rfl⟩
    · obtain ⟨s0, inp0, s1, a1, a2, a3⟩ := ih hn'
      have := get_lt hn'
      refine ⟨s0, inp0, s1, ?_, ?_, ?_⟩
      · rw [take_snoc (by omega), List.take_append_of_le_length (by omega)]; exact a1
      · rw [List.take_append_of_le_length (by omega)]; exact a2
      · rw [take_snoc (by omega), List.take_append_of_le_length (by omega)]; exact a3
    · have e1 : (hist ++ [s'.m]).take (tr.length + 1) = hist := by
        rw [List.take_append_of_le_length (by omega), List.take_of_length_le (by omega)]
      refine ⟨s, inp, s', ?_, ?_, ?_⟩
      · rw [take_all, e1]; exact h1
      · rw [e1, (step_Step h2).tid]; exact h2
      · rw [take_full, List.take_of_length_le (by simp; omega)]; exact h1.snoc h2

/-- The state at any time. -/
theorem Exec.pre (h : Exec c tr hist s) (n : Nat) : ∃ hist' s', Exec c (tr.take n) hist' s' := by
  rcases Nat.lt_or_ge n tr.length with hn | hn
  · obtain ⟨s0, _, _, h1, _⟩ := h.at (List.getElem?_eq_getElem hn)
    exact ⟨_, _, h1⟩
  · rw [List.take_of_length_le hn]; exact ⟨_, _, h⟩

end Verif.SyncCache
