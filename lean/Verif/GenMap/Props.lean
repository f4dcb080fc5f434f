import Verif.GenMap.Model
import Verif.GenMap.Spec
/-!
# Properties C49–C51: generic maps
-/
namespace Verif.GenMap
open Spec (Op Res St Run Valid Given Lists Found Upd)
variable {K V : Type} [DecidableEq K] [Inhabited V]

/-- Run one call of the model under iteration orders `ω`. -/
def exec (ω : Oracle K V) (m : MMem K V) : Op K V → Option (MMem K V × Res K V)
  | .new => let (m, r) := new m; some (m, .map r)
  | .len r => some (m, .int (len m r))
  | .keys r => let (m, xs) := keys ω m r; some (m, .keys xs)
  | .values r => let (m, xs) := values ω m r; some (m, .values xs)
  | .clone r => do let (m, n) ← clone ω m r; some (m, .map n)
  | .clear r => let (m, r) := clear ω m r; some (m, .map r)
  | .load r k => let (v, ok) := load m r k; some (m, .found v ok)
  | .delete r k => let (m, r) := delete m r k; some (m, .map r)
  | .loadAndDelete r k => let (m, v, ok) := loadAndDelete m r k; some (m, .found v ok)
  | .store r k v => do let (m, r) ← store m r k v; some (m, .map r)
  | .loadOrStoreFunc r k v => do let (m, v, ok) ← loadOrStoreFunc m r k v; some (m, .found v ok)
  | .loadAndStore r k v => do let (m, v, ok) ← loadAndStore m r k v; some (m, .found v ok)
  | .copyFrom r src => do let (m, r) ← copyFrom ω m r src; some (m, .map r)
  | .copyTo r dst => do let (m, r) ← copyTo ω m r dst; some (m, .map r)
  | .deleteFunc r f => some (deleteFunc ω m r f, .unit)
  | .equalFunc r r2 eq => let (m, b) := equalFunc ω m r r2 eq; some (m, .bool b)
  | .range r go =>
    let (m, es, all) := range ω m r (fun acc k v => (acc ++ [(k, v)], go k v)) []
    some (m, .visited es all)

/-- The histories of the model, for programs that use only handles they were given and put
nothing into nil maps. -/
inductive MRun (ω : Oracle K V) : List (Op K V × Res K V) → MMem K V → Prop
  | nil : MRun ω [] MMem.empty
  | snoc {tr m op r m'} : MRun ω tr m → Valid (Given tr) op → exec ω m op = some (m', r) →
      MRun ω (tr ++ [(op, r)]) m'

/-- The memory implements the abstract maps. -/
structure Sim (m : MMem K V) (s : St K V) : Prop where
  wf : m.WF
  alive : ∀ a, s.alive a ↔ a < m.fresh
  val : ∀ a, s.alive a → s.val a = aget (m.maps a)

variable {m m' : MMem K V} {s s' : St K V}

omit [Inhabited V] in
theorem Sim.get (h : Sim m s) {r : MRef} (hr : s.ok r) : s.get r = aget (m.at r) := by
  cases r with
  | none => funext k; simp [St.get, MMem.at, aget]
  | some a => exact h.val a hr

omit [Inhabited V] in
theorem Sim.tick (h : Sim m s) (t : Nat) : Sim { m with tick := t } s :=
  ⟨h.wf.tick t, h.alive, h.val⟩

omit [Inhabited V] in
theorem Sim.sets (h : Sim m s) {a : Nat} {g : K → Option V}
    (hs : m.Sets a g m') : ∃ s', s.Becomes (some a) g s' ∧ Sim m' s' := by
  refine ⟨{ s with val := fun b => if b = a then g else s.val b }, ⟨rfl, ?_, ?_⟩, hs.wf, ?_, ?_⟩
  · intro b hb
    have : b ≠ a := fun e => hb (by rw [e])
    simp [this]
  · intro b hb; injection hb with hb; simp [hb]
  · intro b; rw [hs.fresh]; exact h.alive b
  · intro b hb
    by_cases e : b = a
    · subst e; funext k; simp [hs.get]
    · simp [e, hs.other b e]; exact h.val b hb

omit [Inhabited V] in
theorem Sim.creates (h : Sim m s) {g : K → Option V} (hs : m.make.1.Sets m.fresh g m') :
    ∃ s', s.Creates (some m.fresh) g s' ∧ Sim m' s' := by
  have hn : ¬ s.alive m.fresh := fun hc => Nat.lt_irrefl _ ((h.alive _).1 hc)
  refine ⟨{ alive := fun b => b = m.fresh ∨ s.alive b,
            val := fun b => if b = m.fresh then g else s.val b },
    ⟨m.fresh, rfl, hn, fun _ => Iff.rfl, ?_, by simp⟩, hs.wf, ?_, ?_⟩
  · intro b hb
    have : b ≠ m.fresh := by rintro rfl; exact hn hb
    simp [this]
  · intro b; rw [hs.fresh]
    simp only [MMem.make, h.alive b]; omega
  · intro b hb
    by_cases e : b = m.fresh
    · subst e; funext k; simp [hs.get]
    · have : (m.make.1).maps b = m.maps b := by simp [MMem.make, e]
      simp [e, hs.other b e, this]
      rcases hb with hb | hb
      · exact (e hb).elim
      · exact h.val b hb

omit [Inhabited V] in
theorem order_lists (h : Sim m s) (ω : Oracle K V) {r : MRef} (hr : s.ok r) :
    Lists (ω.order m.tick (m.at r)) (s.get r) := by
  refine ⟨MMem.order_wf h.wf ω r, fun k v => ?_⟩
  rw [mem_iff_aget (MMem.order_wf h.wf ω r), MMem.order_get h.wf, h.get hr]

theorem found_read (h : Sim m s) {r : MRef} (hr : s.ok r) (k : K) :
    Found (s.get r k) (.found (read m r k).1 (read m r k).2 : Res K V) := by
  rw [h.get hr]
  unfold read
  cases aget (m.at r) k <;> rfl

omit [Inhabited V] in
/-- Storing and deleting, abstractly. -/
theorem Sim.store (h : Sim m s) {r : MRef} (hr : s.ok r) (hn : r ≠ none) (k : K) (v : V) :
    ∃ m' s' g, m.store r k v = some m' ∧ Upd (s.get r) k (some v) g ∧ s.Becomes r g s' ∧
      Sim m' s' := by
  obtain ⟨a, rfl⟩ := Option.ne_none_iff_exists'.1 hn
  obtain ⟨m', e, hs⟩ := m.store_sets h.wf ((h.alive a).1 hr) k v
  obtain ⟨s', hb, hs'⟩ := h.sets hs
  refine ⟨m', s', _, e, ⟨by simp, fun k' hk => ?_⟩, hb, hs'⟩
  simp only [Ne.symm hk, if_false]; rw [h.get hr]; rfl

omit [Inhabited V] in
theorem Sim.delete (h : Sim m s) {r : MRef} (hr : s.ok r) (k : K) :
    ∃ s' g, Upd (s.get r) k none g ∧ s.Becomes r g s' ∧ Sim (m.delete r k) s' := by
  cases r with
  | none =>
    exact ⟨s, fun _ => none, ⟨rfl, fun _ _ => rfl⟩, ⟨rfl, fun _ _ => rfl, fun _ e => by cases e⟩, h⟩
  | some a =>
    obtain ⟨s', hb, hs'⟩ := h.sets (m.delete_sets h.wf ((h.alive a).1 hr) k)
    refine ⟨s', _, ⟨by simp, fun k' hk => ?_⟩, hb, hs'⟩
    simp only [Ne.symm hk, if_false]; rw [h.get hr]; rfl

omit [Inhabited V] in
theorem Sim.copy (h : Sim m s) (ω : Oracle K V) {r src : MRef} (hr : s.ok r) (hn : r ≠ none)
    (hs : s.ok src) : ∃ m' s', m.copy ω r src = some m' ∧
      s.Becomes r (fun k => (s.get src k).or (s.get r k)) s' ∧ Sim m' s' := by
  obtain ⟨a, rfl⟩ := Option.ne_none_iff_exists'.1 hn
  obtain ⟨m', e, hs'⟩ := MMem.copy_sets h.wf ω ((h.alive a).1 hr) src
  obtain ⟨s', hb, hs''⟩ := h.sets hs'
  refine ⟨m', s', e, ?_, hs''⟩
  rw [h.get hr, h.get hs]; exact hb

omit [DecidableEq K] [Inhabited V] in
theorem rangeLoop_spec (go : K → V → Bool) (es acc : List (K × V)) :
    (rangeLoop (fun acc k v => (acc ++ [(k, v)], go k v)) acc es = (acc ++ es, true) ∧
      ∀ e ∈ es, go e.1 e.2 = true) ∨
    ∃ xs e ys, es = xs ++ e :: ys ∧ (∀ e ∈ xs, go e.1 e.2 = true) ∧ go e.1 e.2 = false ∧
      rangeLoop (fun acc k v => (acc ++ [(k, v)], go k v)) acc es = (acc ++ xs ++ [e], false) := by
  induction es generalizing acc with
  | nil => left; simp [rangeLoop]
  | cons e es ih =>
    obtain ⟨k, v⟩ := e
    cases hg : go k v with
    | false =>
      right
      exact ⟨[], (k, v), es, rfl, by simp, hg, by simp [rangeLoop, hg]⟩
    | true =>
      rcases ih (acc ++ [(k, v)]) with ⟨h1, h2⟩ | ⟨xs, e, ys, h1, h2, h3, h4⟩
      · left; refine ⟨by simp [rangeLoop, hg, h1], ?_⟩
        intro e he; rcases List.mem_cons.1 he with rfl | he
        · exact hg
        · exact h2 e he
      · right
        refine ⟨(k, v) :: xs, e, ys, by simp [h1], ?_, h3, by simp [rangeLoop, hg, h4]⟩
        intro e he; rcases List.mem_cons.1 he with rfl | he
        · exact hg
        · exact h2 e he

omit [Inhabited V] in
theorem Sim.empty_change (h : Sim m s) (ω : Oracle K V) (f : K → V → Bool) :
    m.deleteFunc ω none f = { m with tick := m.tick + 1 } := by
  have := (ω.perm m.tick (m.at none)).eq_nil
  simp only [MMem.deleteFunc, MMem.range]
  rw [this]; rfl

/-- Each valid call of the model does what the specification says. -/
theorem sim_step (ω : Oracle K V) (h : Sim m s) (op : Op K V) (hv : Valid s.ok op) :
    ∃ m' r s', exec ω m op = some (m', r) ∧ s.Step op r s' ∧ Sim m' s' := by
  cases op with
  | new =>
    obtain ⟨s', hc, hs⟩ := h.creates (g := fun _ => none)
      ((MMem.Sets.refl h.wf.make m.fresh).congr fun k => by simp [MMem.make, aget])
    exact ⟨_, _, s', rfl, ⟨_, rfl, hc⟩, hs⟩
  | len a =>
    refine ⟨m, _, s, rfl, ⟨rfl, _, order_lists h ω hv, ?_⟩, h⟩
    rw [(ω.perm _ _).length_eq]; rfl
  | keys a => exact ⟨_, _, s, rfl, ⟨rfl, _, order_lists h ω hv, rfl⟩, h.tick _⟩
  | values a => exact ⟨_, _, s, rfl, ⟨rfl, _, order_lists h ω hv, rfl⟩, h.tick _⟩
  | clone a =>
    have hmk : m.fresh < m.make.1.fresh := by simp [MMem.make]
    obtain ⟨m', e, hs⟩ := MMem.copy_sets h.wf.make ω hmk a
    have hat : m.make.1.at a = m.at a := by
      cases a with
      | none => rfl
      | some a =>
        simp [MMem.at, MMem.make, Nat.ne_of_lt ((h.alive a).1 hv)]
    obtain ⟨s', hc, hs⟩ := h.creates (g := s.get a) (hs.congr fun k => by
      rw [hat, h.get hv]; simp [MMem.make, aget])
    refine ⟨m', .map (some m.fresh), s', ?_, ⟨_, rfl, hc⟩, hs⟩
    simp only [exec, clone, new, copyFrom]
    show Option.bind ((MMem.copy ω m.make.1 (some m.fresh) a).bind _) _ = _
    rw [e]; rfl
  | clear a =>
    cases a with
    | none =>
      refine ⟨_, _, s, rfl, ⟨rfl, rfl, fun _ _ => rfl, fun _ e => by cases e⟩, ?_⟩
      have : m.clearMap ω none = { m with tick := m.tick + 1 } := by
        have := (ω.perm m.tick (m.at none)).eq_nil
        simp only [MMem.clearMap, MMem.range]
        rw [this]; rfl
      show Sim (m.clearMap ω none) s; rw [this]; exact h.tick _
    | some a =>
      obtain ⟨s', hb, hs⟩ := h.sets (MMem.clear_sets h.wf ω ((h.alive a).1 hv))
      exact ⟨_, _, s', rfl, ⟨rfl, hb⟩, hs⟩
  | load a k => exact ⟨m, _, s, rfl, ⟨rfl, found_read h hv k⟩, h⟩
  | delete a k =>
    obtain ⟨s', g, hu, hb, hs⟩ := h.delete hv k
    exact ⟨_, _, s', rfl, ⟨rfl, g, hu, hb⟩, hs⟩
  | loadAndDelete a k =>
    obtain ⟨s', g, hu, hb, hs⟩ := h.delete hv k
    have hf := found_read h hv k
    cases hk : aget (m.at a) k with
    | some v =>
      refine ⟨m.delete a k, .found v true, s', by simp [exec, loadAndDelete, read, hk],
        ⟨by simpa [read, hk] using hf, g, hu, hb⟩, hs⟩
    | none =>
      refine ⟨m, .found default false, s, by simp [exec, loadAndDelete, read, hk],
        ⟨by simpa [read, hk] using hf, s.get a, ⟨?_, fun _ _ => rfl⟩, rfl, fun _ _ => rfl, ?_⟩, h⟩
      · rw [h.get hv]; exact hk
      · rintro b rfl; rfl
  | store a k v =>
    obtain ⟨m', s', g, e, hu, hb, hs⟩ := h.store hv.1 hv.2 k v
    exact ⟨m', .map a, s', by simp [exec, store, e], ⟨rfl, g, hu, hb⟩, hs⟩
  | loadAndStore a k v =>
    obtain ⟨m', s', g, e, hu, hb, hs⟩ := h.store hv.1 hv.2 k v
    exact ⟨m', .found (read m a k).1 (read m a k).2, s', by simp [exec, loadAndStore, e],
      ⟨found_read h hv.1 k, g, hu, hb⟩, hs⟩
  | loadOrStoreFunc a k v =>
    have hg : s.get a k = aget (m.at a) k := by rw [h.get hv.1]
    cases hk : aget (m.at a) k with
    | some w =>
      refine ⟨m, .found w true, s, by simp [exec, loadOrStoreFunc, read, hk], ?_, h⟩
      simp only [St.Step, hg, hk]; trivial
    | none =>
      obtain ⟨m', s', g, e, hu, hb, hs⟩ := h.store hv.1 hv.2 k v
      refine ⟨m', .found v false, s', by simp [exec, loadOrStoreFunc, read, hk, e], ?_, hs⟩
      simp only [St.Step, hg, hk]; exact ⟨trivial, g, hu, hb⟩
  | copyFrom a t =>
    obtain ⟨m', s', e, hb, hs⟩ := h.copy ω hv.1 hv.2.1 hv.2.2
    exact ⟨m', .map a, s', by simp [exec, copyFrom, e], ⟨rfl, hb⟩, hs⟩
  | copyTo a t =>
    obtain ⟨m', s', e, hb, hs⟩ := h.copy ω hv.2.1 hv.2.2 hv.1
    exact ⟨m', .map a, s', by simp [exec, copyTo, e], ⟨rfl, hb⟩, hs⟩
  | deleteFunc a f =>
    cases a with
    | none =>
      refine ⟨_, _, s, rfl, ⟨rfl, rfl, fun _ _ => rfl, fun _ e => by cases e⟩, ?_⟩
      rw [deleteFunc, h.empty_change]; exact h.tick _
    | some a =>
      obtain ⟨s', hb, hs⟩ := h.sets (MMem.deleteFunc_sets h.wf ω ((h.alive a).1 hv) f)
      refine ⟨_, _, s', rfl, ⟨rfl, ?_⟩, hs⟩
      have : (fun k => (s.get (some a) k).filter (!f k ·)) = (fun k =>
          if (aget (m.maps a) k).any (f k) then none else aget (m.maps a) k) := by
        funext k
        rw [h.get (r := some a) hv]; simp only [MMem.at]
        cases aget (m.maps a) k with
        | none => rfl
        | some v => cases hf : f k v <;> simp [Option.filter, hf]
      rw [this]; exact hb
  | equalFunc a t eq =>
    obtain ⟨ha, ht⟩ := hv
    have hsim : Sim (equalFunc ω m a t eq).1 s := by
      simp only [equalFunc, MMem.equalFunc]
      split
      · exact h
      · exact h.tick _
    refine ⟨_, .bool (equalFunc ω m a t eq).2, s, rfl, ⟨rfl, _, rfl, ?_⟩, hsim⟩
    rw [equalFunc, MMem.equalFunc_spec h.wf]
    refine forall_congr' fun x => ?_
    rw [h.get ha, h.get ht]
    cases aget (m.at a) x <;> cases aget (m.at t) x <;> simp
  | range a go =>
    refine ⟨_, _, s, rfl, ⟨rfl, _, order_lists h ω hv, ?_⟩, h.tick _⟩
    have := rangeLoop_spec go (ω.order m.tick (m.at a)) []
    rcases this with ⟨h1, h2⟩ | ⟨xs, e, ys, h1, h2, h3, h4⟩
    · left; refine ⟨?_, h2⟩
      simp only [range, MMem.range, h1, List.nil_append]
    · right
      refine ⟨xs, e, ys, h1, h2, h3, ?_⟩
      simp only [range, MMem.range, h4, List.nil_append]

omit [DecidableEq K] [Inhabited V] in
theorem Valid.mono {ok ok' : Option Nat → Prop} (h : ∀ r, ok r → ok' r) {op : Op K V}
    (hv : Valid ok op) : Valid ok' op := by
  cases op <;> simp only [Valid] at hv ⊢
  all_goals first
    | exact h _ hv
    | exact ⟨h _ hv.1, hv.2⟩
    | exact ⟨h _ hv.1, hv.2.1, h _ hv.2.2⟩
    | exact ⟨h _ hv.1, h _ hv.2.1, hv.2.2⟩
    | exact ⟨h _ hv.1, h _ hv.2⟩

omit [DecidableEq K] in
/-- Handles stay alive, and what a call returns is alive. -/
theorem step_ok {op : Op K V} {r : Res K V} (h : s.Step op r s') (hv : Valid s.ok op) :
    (∀ a, s.alive a → s'.alive a) ∧ ∀ x, r = .map x → s'.ok x := by
  have hb : ∀ {r : Option Nat} {P : K → Option V}, s.Becomes r P s' →
      (∀ a, s.alive a → s'.alive a) := fun hb a ha => by rw [hb.1]; exact ha
  have hk : ∀ {r : Option Nat}, (∀ a, s.alive a → s'.alive a) → s.ok r → s'.ok r := by
    intro r h hr
    cases r with
    | none => trivial
    | some a => exact h a hr
  have hc : ∀ {r : Option Nat} {P : K → Option V}, s.Creates r P s' →
      (∀ a, s.alive a → s'.alive a) ∧ s'.ok r := by
    rintro r P ⟨n, rfl, _, ha, _⟩
    exact ⟨fun a h => (ha a).2 (Or.inr h), (ha n).2 (Or.inl rfl)⟩
  cases op <;> simp only [St.Step, Valid] at h hv
  case new => obtain ⟨n, rfl, h⟩ := h; exact ⟨(hc h).1, fun x e => by cases e; exact (hc h).2⟩
  case len => obtain ⟨rfl, xs, _, rfl⟩ := h; exact ⟨fun _ h => h, fun x e => by cases e⟩
  case keys => obtain ⟨rfl, xs, _, rfl⟩ := h; exact ⟨fun _ h => h, fun x e => by cases e⟩
  case values => obtain ⟨rfl, xs, _, rfl⟩ := h; exact ⟨fun _ h => h, fun x e => by cases e⟩
  case clone => obtain ⟨n, rfl, h⟩ := h; exact ⟨(hc h).1, fun x e => by cases e; exact (hc h).2⟩
  case clear => obtain ⟨rfl, h⟩ := h; exact ⟨hb h, fun x e => by cases e; exact hk (hb h) hv⟩
  case load =>
    obtain ⟨rfl, h⟩ := h
    refine ⟨fun _ h => h, fun x e => ?_⟩
    subst e; unfold Found at h; split at h <;> cases h
  case delete =>
    obtain ⟨rfl, g, _, h⟩ := h; exact ⟨hb h, fun x e => by cases e; exact hk (hb h) hv⟩
  case loadAndDelete =>
    obtain ⟨hf, g, _, h⟩ := h
    refine ⟨hb h, fun x e => ?_⟩
    subst e; unfold Found at hf; split at hf <;> cases hf
  case store =>
    obtain ⟨rfl, g, _, h⟩ := h; exact ⟨hb h, fun x e => by cases e; exact hk (hb h) hv.1⟩
  case loadAndStore =>
    obtain ⟨hf, g, _, h⟩ := h
    refine ⟨hb h, fun x e => ?_⟩
    subst e; unfold Found at hf; split at hf <;> cases hf
  case loadOrStoreFunc =>
    split at h
    · obtain ⟨rfl, rfl⟩ := h; exact ⟨fun _ h => h, fun x e => by cases e⟩
    · obtain ⟨rfl, g, _, h⟩ := h; exact ⟨hb h, fun x e => by cases e⟩
  case copyFrom =>
    obtain ⟨rfl, h⟩ := h; exact ⟨hb h, fun x e => by cases e; exact hk (hb h) hv.1⟩
  case copyTo => obtain ⟨rfl, h⟩ := h; exact ⟨hb h, fun x e => by cases e; exact hk (hb h) hv.1⟩
  case deleteFunc => obtain ⟨rfl, h⟩ := h; exact ⟨hb h, fun x e => by cases e⟩
  case equalFunc => obtain ⟨rfl, t, rfl, _⟩ := h; exact ⟨fun _ h => h, fun x e => by cases e⟩
  case range =>
    obtain ⟨rfl, es, _, h⟩ := h
    refine ⟨fun _ h => h, fun x e => ?_⟩
    subst e
    rcases h with ⟨h, _⟩ | ⟨_, _, _, _, _, _, h⟩ <;> cases h

omit [DecidableEq K] in
theorem run_given {tr : List (Op K V × Res K V)} (h : Run tr s) : ∀ r, Given tr r → s.ok r := by
  induction h with
  | nil =>
    rintro r (rfl | ⟨c, hc, _⟩)
    · trivial
    · cases hc
  | @snoc tr s op r s' _ hv hs ih =>
    have := step_ok hs (Valid.mono ih hv)
    rintro x (rfl | ⟨c, hc, he⟩)
    · trivial
    · rcases List.mem_append.1 hc with hc | hc
      · have := ih x (Or.inr ⟨c, hc, he⟩)
        cases x with
        | none => trivial
        | some a => exact (step_ok hs (Valid.mono ih hv)).1 a this
      · simp only [List.mem_singleton] at hc; subst hc
        exact this.2 x he

theorem run_sim {ω : Oracle K V} {tr : List (Op K V × Res K V)} (h : MRun ω tr m) :
    ∃ s, Run tr s ∧ Sim m s := by
  induction h with
  | nil => exact ⟨_, .nil, MMem.WF.empty, fun a => by simp [St.empty, MMem.empty], fun _ h => h.elim⟩
  | snoc _ hv he ih =>
    obtain ⟨s, hr, hs⟩ := ih
    obtain ⟨m', r', s', e, hst, hs'⟩ := sim_step ω hs _ (Valid.mono (run_given hr) hv)
    rw [e] at he; cases he
    exact ⟨s', .snoc hr hv hst, hs'⟩

/-- **C49.**  For every program that only uses map handles it was given (nil included) and writes
to non-nil maps, and for all map iteration orders: every history of calls is a history of finite
partial functions (`Spec.St.Step`), and no next call panics. -/
theorem C49_history (ω : Oracle K V) {tr : List (Op K V × Res K V)} {m : MMem K V}
    (h : MRun ω tr m) :
    (∃ s, Run tr s) ∧ ∀ op, Valid (Given tr) op → ∃ m' r, exec ω m op = some (m', r) := by
  obtain ⟨s, hr, hs⟩ := run_sim h
  refine ⟨⟨s, hr⟩, fun op hv => ?_⟩
  obtain ⟨m', r', s', e, _⟩ := sim_step ω hs op (Valid.mono (run_given hr) hv)
  exact ⟨m', r', e⟩

/-- Visiting maps from the last entry to the first. -/
def backwards : Oracle Nat Nat := ⟨fun _ l => l.reverse, fun _ l => List.reverse_perm l⟩

/-- A history: `a := New(); a.Store(1, 10); a.Store(2, 20); b := a.Clone();
a.LoadAndDelete(1) = 10, true; b.DeleteFunc(k is 2); b.Keys() = [1]; a.Load(1) = 0, false`. -/
example : ∃ m, MRun backwards [(.new, .map (some 0)), (.store (some 0) 1 10, .map (some 0)),
    (.store (some 0) 2 20, .map (some 0)), (.clone (some 0), .map (some 1)),
    (.loadAndDelete (some 0) 1, .found 10 true), (.deleteFunc (some 1) (fun k _ => k == 2), .unit),
    (.keys (some 1), .keys [1]), (.load (some 0) 1, .found 0 false)] m := by
  refine ⟨_, .snoc (tr := [_, _, _, _, _, _, _]) (.snoc (tr := [_, _, _, _, _, _])
    (.snoc (tr := [_, _, _, _, _])
    (.snoc (tr := [_, _, _, _]) (.snoc (tr := [_, _, _]) (.snoc (tr := [_, _]) (.snoc (tr := [_])
    (.snoc .nil trivial rfl) ?_ rfl) ?_ rfl) ?_ rfl) ?_ rfl) ?_ rfl) ?_ rfl) ?_ rfl⟩ <;>
    simp [Valid, Given]

/-- **C50 is false of the code.**  On an empty map, `LoadOrStore(1, 5)` stores 5 but returns 0. -/
theorem C50_loadOrStore_false :
    ¬ (∀ (m : MMem Nat Nat) (a : Nat) (k v : Nat), m.WF → a < m.fresh →
      ∃ m' actual loaded, loadOrStore m (some a) k v = some (m', actual, loaded) ∧
        load m' (some a) k = (actual, true)) := by
  intro hall
  have hw : (MMem.make (MMem.empty : MMem Nat Nat)).1.WF := MMem.WF.empty.make
  obtain ⟨m', actual, loaded, e, hl⟩ := hall (MMem.make MMem.empty).1 0 1 5 hw (by decide)
  have h1 : (loadOrStore (MMem.make (MMem.empty : MMem Nat Nat)).1 (some 0) 1 5).map
      (fun p => (p.2.1, load p.1 (some 0) 1)) = some (0, (5, true)) := rfl
  rw [e] at h1
  simp only [Option.map_some, hl] at h1
  simp at h1; omega

/-- **C50, what holds.**  If the key is present, `LoadOrStore` returns its value and `true` and
changes nothing.  If it is absent, `LoadOrStore` stores `v`, changes nothing else and returns
`false` — but with the zero value instead of `v`, so that the documented result comes out only if
`v` is the zero value.  (Missing: `actual = v` in the second case, genmap.go:68-69.) -/
theorem C50_loadOrStore_partial (h : m.WF) {a : Nat} (ha : a < m.fresh) (k : K) (v : V) :
    ∃ m', loadOrStore m (some a) k v =
        some (m', (load m (some a) k).1, (load m (some a) k).2) ∧ m'.WF ∧
      (∀ w, load m (some a) k = (w, true) → m' = m) ∧
      ((load m (some a) k).2 = false → (load m (some a) k).1 = default ∧
        load m' (some a) k = (v, true) ∧ (∀ k', k' ≠ k → load m' (some a) k' = load m (some a) k') ∧
        ∀ b, b ≠ a → ∀ k', load m' (some b) k' = load m (some b) k') := by
  cases hk : aget (m.maps a) k with
  | some w =>
    refine ⟨m, by simp [loadOrStore, load, read, MMem.at, hk], h, fun _ _ => rfl, fun hf => ?_⟩
    simp [load, read, MMem.at, hk] at hf
  | none =>
    obtain ⟨m', e, hs⟩ := m.store_sets h ha k v
    refine ⟨m', by simp [loadOrStore, load, read, MMem.at, hk, e], hs.wf, fun w hw => ?_,
      fun _ => ⟨by simp [load, read, MMem.at, hk], ?_, ?_, ?_⟩⟩
    · simp [load, read, MMem.at, hk] at hw
    · simp [load, read, MMem.at, hs.get]
    · intro k' hk'; simp [load, read, MMem.at, hs.get, Ne.symm hk']
    · intro b hb k'; simp [load, read, MMem.at, hs.other b hb]

example : (loadOrStore (MMem.make (MMem.empty : MMem Nat Nat)).1 (some 0) 1 5).map (·.2)
    = some (0, false) := rfl

/-- **C51.**  `EqualFunc` holds iff both maps have the same keys and `eq` holds at every key,
whatever the iteration order. -/
theorem C51_equalFunc (ω : Oracle K V) (h : m.WF) (a b : MRef) (eq : V → V → Bool) :
    (equalFunc ω m a b eq).2 = true ↔
      (∀ k, (load m a k).2 = (load m b k).2) ∧
      ∀ k, (load m a k).2 = true → eq (load m a k).1 (load m b k).1 = true := by
  rw [equalFunc, MMem.equalFunc_spec h, ← forall_and]
  refine forall_congr' fun k => ?_
  simp only [load, read]
  cases aget (m.at a) k <;> cases aget (m.at b) k <;> simp

/-- A memory with the maps {1 ↦ 10, 2 ↦ 20} and {2 ↦ 21, 1 ↦ 11}. -/
def twoMaps : MMem Nat Nat :=
  { maps := fun a => if a = 0 then [(1, 10), (2, 20)] else if a = 1 then [(2, 21), (1, 11)] else []
    fresh := 2
    tick := 0 }

example : (equalFunc backwards twoMaps (some 0) (some 1) (fun x y => x + 1 == y)).2 = true := rfl
example : (equalFunc backwards twoMaps (some 0) (some 1) (fun x y => x == y)).2 = false := rfl
example : (equalFunc backwards twoMaps (some 0) none (fun _ _ => true)).2 = false := rfl

end Verif.GenMap
