import Verif.Set.Model
import Verif.Set.Spec
/-!
# Properties C44–C48: sets
-/
namespace Verif.GoSet
open Spec (Op Res St Run Valid Given Lists)
variable {T : Type} [DecidableEq T]

/-- Run one call of the model under iteration orders `ω`. -/
def exec (ω : Ord T) (m : Mem T) : Op T → Option (Mem T × Res T)
  | .new => let (m, r) := new m; some (m, .set r)
  | .len s => some (m, .int (len m s))
  | .slice s => let (m, xs) := slice ω m s; some (m, .slice xs)
  | .isEmpty s => some (m, .bool (isEmpty m s))
  | .contain s v => some (m, .bool (contain m s v))
  | .clone s => do let (m, r) ← clone ω m s; some (m, .set r)
  | .clear s => some (clear ω m s, .set s)
  | .push s vs => do let m ← push m s vs; some (m, .set s)
  | .insert s v => do let (m, b) ← insert m s v; some (m, .bool b)
  | .remove s v => let (m, b) := remove m s v; some (m, .bool b)
  | .containAndRemove s v => let (m, b) := containAndRemove m s v; some (m, .bool b)
  | .copyFrom s t => do let m ← copyFrom ω m s t; some (m, .set s)
  | .equal s t => let (m, b) := equal ω m s t; some (m, .bool b)
  | .isSubSet s t => do let (m, b) ← isSubSet ω m s t; some (m, .bool b)
  | .difference s t => do let (m, r) ← difference ω m s t; some (m, .set r)
  | .symmetricDifference s t => do let (m, r) ← symmetricDifference ω m s t; some (m, .set r)
  | .intersection s t => do let (m, r) ← intersection ω m s t; some (m, .set r)
  | .union s ts => do let (m, r) ← union ω m s ts; some (m, .set r)

/-- The histories of the model, for programs that use only handles they were given and put
nothing into nil sets. -/
inductive MRun (ω : Ord T) : List (Op T × Res T) → Mem T → Prop
  | nil : MRun ω [] MMem.empty
  | snoc {tr m op r m'} : MRun ω tr m → Valid (Given tr) op → exec ω m op = some (m', r) →
      MRun ω (tr ++ [(op, r)]) m'

/-- The memory implements the abstract sets. -/
structure Sim (m : Mem T) (s : St T) : Prop where
  wf : m.WF
  alive : ∀ a, s.alive a ↔ a < m.fresh
  mem : ∀ a, s.alive a → ∀ x, s.mem a x ↔ (aget (m.maps a) x).isSome

variable {m m' : Mem T} {s s' : St T}

theorem Sim.has (h : Sim m s) {r : MRef} (hr : s.ok r) (x : T) :
    s.has r x ↔ (aget (m.at r) x).isSome := by
  cases r with
  | none => simp [St.has, MMem.at, aget]
  | some a => exact h.mem a hr x

theorem Sim.contain (h : Sim m s) {r : MRef} (hr : s.ok r) (x : T) :
    contain m r x = true ↔ s.has r x := (h.has hr x).symm

theorem Sim.tick (h : Sim m s) (t : Nat) : Sim { m with tick := t } s :=
  ⟨h.wf.tick t, h.alive, h.mem⟩

/-- A map update seen abstractly. -/
theorem Sim.sets (h : Sim m s) {a : Nat} (ha : s.alive a) {g : T → Option Unit} {P : T → Prop}
    (hs : m.Sets a g m') (hg : ∀ x, (g x).isSome ↔ P x) :
    ∃ s', s.Becomes (some a) P s' ∧ Sim m' s' := by
  refine ⟨{ s with mem := fun b x => if b = a then P x else s.mem b x }, ⟨rfl, ?_, ?_⟩, hs.wf, ?_, ?_⟩
  · intro b hb x
    have : b ≠ a := fun e => hb (by rw [e])
    simp [this]
  · intro b hb x; injection hb with hb; simp [hb]
  · intro b; rw [hs.fresh]; exact h.alive b
  · intro b hb x
    by_cases e : b = a
    · subst e; simp [hs.get, hg]
    · simp [e, hs.other b e]; exact h.mem b hb x

/-- A newly made map filled with `g`, seen abstractly. -/
theorem Sim.creates (h : Sim m s) {g : T → Option Unit} {P : T → Prop}
    (hs : m.make.1.Sets m.fresh g m') (hg : ∀ x, (g x).isSome ↔ P x) :
    ∃ s', s.Creates (some m.fresh) P s' ∧ Sim m' s' := by
  have hn : ¬ s.alive m.fresh := fun hc => Nat.lt_irrefl _ ((h.alive _).1 hc)
  refine ⟨{ alive := fun b => b = m.fresh ∨ s.alive b,
            mem := fun b x => if b = m.fresh then P x else s.mem b x },
    ⟨m.fresh, rfl, hn, fun _ => Iff.rfl, ?_, ?_⟩, hs.wf, ?_, ?_⟩
  · intro b hb x
    have : b ≠ m.fresh := by rintro rfl; exact hn hb
    simp [this]
  · intro x; simp
  · intro b; rw [hs.fresh]
    simp only [MMem.make, h.alive b]; omega
  · intro b hb x
    by_cases e : b = m.fresh
    · subst e; simp [hs.get, hg]
    · have : (m.make.1).maps b = m.maps b := by simp [MMem.make, e]
      simp [e, hs.other b e, this]
      rcases hb with hb | hb
      · exact (e hb).elim
      · exact h.mem b hb x

theorem insert_sets (h : m.WF) {a : Nat} (ha : a < m.fresh) (v : T) :
    ∃ m', insert m (some a) v = some (m', !contain m (some a) v) ∧
      m.Sets a (fun k => if k = v then some () else aget (m.maps a) k) m' := by
  unfold insert
  split
  · next hc =>
    refine ⟨m, by simp [hc], (MMem.Sets.refl h a).congr fun k => ?_⟩
    split
    · next e =>
      subst e
      obtain ⟨u, hu⟩ := Option.isSome_iff_exists.1 hc
      exact hu
    · rfl
  · next hc =>
    obtain ⟨m', e, hs⟩ := m.store_sets h ha v ()
    refine ⟨m', by simp [e, hc], hs.congr fun k => ?_⟩
    simp [eq_comm]

/-- The insert-if loops of the set operations. -/
theorem loop_sets {q : Mem T → T → Bool} {d : Nat} {p : T → Bool} (m0 : Mem T)
    (hq : ∀ m' : Mem T, (∀ b, b ≠ d → m'.maps b = m0.maps b) → ∀ x, q m' x = p x) :
    ∀ (es : List T) (m : Mem T), m.WF → d < m.fresh → (∀ b, b ≠ d → m.maps b = m0.maps b) →
    ∃ m', rangeLoop (fun m x => if q m x then do
        let (m, _) ← insert m (some d) x
        some (m, true)
      else some (m, true)) m es = some m' ∧
      m.Sets d (fun k => if k ∈ es ∧ p k then some () else aget (m.maps d) k) m' := by
  intro es
  induction es with
  | nil => intro m h _ _; exact ⟨m, rfl, (MMem.Sets.refl h d).congr fun k => by simp⟩
  | cons x es ih =>
    intro m h hd ho
    by_cases hp : p x
    · obtain ⟨m1, e1, s1⟩ := insert_sets h hd x
      obtain ⟨m2, e2, s2⟩ := ih m1 s1.wf (by rw [s1.fresh]; exact hd)
        (fun b hb => by rw [s1.other b hb, ho b hb])
      refine ⟨m2, ?_, (s1.trans s2).congr fun k => ?_⟩
      · simp only [rangeLoop, hq m ho, hp, if_true, e1, Option.bind_eq_bind, Option.bind_some]
        exact e2
      · rw [s1.get]
        by_cases hk : k = x
        · subst hk; simp [hp]
        · simp [hk]
    · obtain ⟨m2, e2, s2⟩ := ih m h hd ho
      refine ⟨m2, ?_, s2.congr fun k => ?_⟩
      · simp only [rangeLoop, hq m ho, hp, Option.bind_eq_bind, Option.bind_some, if_true]
        exact e2
      · by_cases hk : k = x
        · subst hk; simp [hp]
        · simp [hk]

theorem keys_mem (h : m.WF) (ω : Ord T) (r : MRef) (k : T) :
    k ∈ (m.keys ω r).2 ↔ (aget (m.at r) k).isSome := (MMem.keys_spec h ω r).2.1 k

theorem addAll_sets (h : m.WF) (ω : Ord T) {u : Nat} (hu : u < m.fresh) (v : MRef) :
    ∃ m', addAll ω m (some u) v = some m' ∧
      m.Sets u (fun k => (aget (m.at v) k).or (aget (m.maps u) k)) m' := by
  obtain ⟨m', e, s⟩ := loop_sets (q := fun _ _ => true) (d := u) (p := fun _ => true) m
    (fun _ _ _ => rfl) (m.keys ω v).2 { m with tick := m.tick + 1 } (h.tick _) hu (fun _ _ => rfl)
  refine ⟨m', ?_, s.of_tick.congr fun k => ?_⟩
  · simp only [if_true] at e; exact e
  · simp only [and_true, keys_mem h]
    cases hk : aget (m.at v) k <;> simp

theorem at_make (m : Mem T) {r : MRef} (hr : m.Ok r) : m.make.1.at r = m.at r := by
  cases r with
  | none => rfl
  | some a => simp [MMem.at, MMem.make, Nat.ne_of_lt (show a < m.fresh from hr)]

theorem at_other {m m' : Mem T} {d : Nat} (h : ∀ b, b ≠ d → m'.maps b = m.maps b) {r : MRef}
    (hr : r ≠ some d) : m'.at r = m.at r := by
  cases r with
  | none => rfl
  | some a => exact h a (fun e => hr (by rw [e]))

theorem Sim.okm (h : Sim m s) {r : MRef} (hr : s.ok r) : m.Ok r := by
  cases r with
  | none => trivial
  | some a => exact (h.alive a).1 hr

theorem ok_ne (m : Mem T) {r : MRef} (hr : m.Ok r) : r ≠ some m.fresh := by
  rintro rfl; exact Nat.lt_irrefl _ hr


theorem contain_other {m' : Mem T} {t : MRef} (ht : m.Ok t)
    (h : ∀ b, b ≠ m.fresh → m'.maps b = m.make.1.maps b) (x : T) :
    contain m' t x = contain m t x := by
  simp only [contain]
  rw [at_other h (ok_ne m ht), at_make m ht]

/-- A filtering loop over `a`, into the set at `m.fresh`, which is the one just made. -/
theorem filter_sets (h : m.WF) (ω : Ord T) {a : MRef} (ha : m.Ok a) {q : Mem T → T → Bool}
    {p : T → Bool} (hq : ∀ m' : Mem T, (∀ b, b ≠ m.fresh → m'.maps b = m.make.1.maps b) →
      ∀ x, q m' x = p x) {m1 : Mem T} {g : T → Option Unit} (h1 : m.make.1.Sets m.fresh g m1) :
    ∃ m', rangeLoop (fun m' x => if q m' x then do
        let (m', _) ← insert m' (some m.fresh) x
        some (m', true)
      else some (m', true)) (m1.keys ω a).1 (m1.keys ω a).2 = some m' ∧
      m.make.1.Sets m.fresh
        (fun k => if (aget (m.at a) k).isSome ∧ p k then some () else g k) m' := by
  obtain ⟨m', e, s⟩ := loop_sets (d := m.fresh) m.make.1 hq (m1.keys ω a).2
    { m1 with tick := m1.tick + 1 } (h1.wf.tick _) (by show _ < m1.fresh; rw [h1.fresh]; simp [MMem.make])
    (fun b hb => h1.other b hb)
  refine ⟨m', e, (h1.trans s.of_tick).congr fun k => ?_⟩
  have hk : k ∈ (m1.keys ω a).2 ↔ (aget (m.at a) k).isSome := by
    rw [keys_mem h1.wf, at_other (fun b hb => h1.other b hb) (ok_ne m ha), at_make m ha]
  simp only [h1.get, hk]

theorem make_sets (h : m.WF) : m.make.1.Sets m.fresh (fun _ => none) m.make.1 :=
  (MMem.Sets.refl h.make m.fresh).congr fun k => by simp [MMem.make, aget]

theorem Sim.cardinal (h : Sim m s) {r : MRef} (hr : s.ok r) :
    ∃ xs, Lists xs (s.has r) ∧ (m.at r).length = xs.length := by
  refine ⟨(m.at r).map Prod.fst, ⟨h.wf.at_wf r, fun x => ?_⟩, by simp⟩
  rw [h.has hr, aget_isSome]

theorem Sim.remove (h : Sim m s) {r : MRef} (hr : s.ok r) (v : T) :
    ∃ s', s.Becomes r (fun x => s.has r x ∧ x ≠ v) s' ∧ Sim (remove m r v).1 s' ∧
      ((GoSet.remove m r v).2 = true ↔ s.has r v) := by
  have hc := h.contain hr v
  cases r with
  | none => exact ⟨s, ⟨rfl, fun _ _ _ => Iff.rfl, fun _ e => by cases e⟩, by
      simpa [GoSet.remove, GoSet.contain, MMem.at, aget] using h, by
      simp [GoSet.remove, GoSet.contain, MMem.at, aget, St.has]⟩
  | some a =>
    have ha := (h.alive a).1 hr
    unfold GoSet.remove
    split
    · next hv =>
      obtain ⟨s', hb, hs⟩ := h.sets hr (P := fun x => s.has (some a) x ∧ x ≠ v)
        (m.delete_sets h.wf ha v) (fun x => by
          rw [h.has hr]
          by_cases e : v = x
          · simp [e]
          · simp [e, MMem.at, Ne.symm e])
      exact ⟨s', hb, hs, by simp [← hc, hv]⟩
    · next hv =>
      obtain ⟨s', hb, hs⟩ := h.sets hr (P := fun x => s.has (some a) x ∧ x ≠ v)
        (MMem.Sets.refl h.wf a) (fun x => by
          rw [h.has hr]
          refine ⟨fun hx => ⟨hx, ?_⟩, fun hx => hx.1⟩
          rintro rfl; exact hv hx)
      exact ⟨s', hb, hs, by simp [← hc, hv]⟩

theorem rangeLoop_all (p : T → Bool) (es : List T) :
    rangeLoop (fun _ x => some (if p x then (true, true) else (false, false))) true es
      = some (es.all p) := by
  induction es with
  | nil => rfl
  | cons x es ih => by_cases h : p x <;> simp [rangeLoop, h, ih]

theorem Sim.isSubSet (h : Sim m s) (ω : Ord T) {a t : MRef} (ha : s.ok a) (ht : s.ok t) :
    ∃ m' b, isSubSet ω m a t = some (m', b) ∧ Sim m' s ∧
      (b = true ↔ ∀ x, s.has a x → s.has t x) := by
  unfold GoSet.isSubSet
  split
  · next hl =>
    refine ⟨m, false, rfl, h, by simp, fun hc => ?_⟩
    exfalso
    have hsub : (m.at a).map (·.1) ⊆ (m.at t).map (·.1) := fun x hx =>
      aget_isSome.1 ((h.has ht x).1 (hc x ((h.has ha x).2 (aget_isSome.2 hx))))
    have := (List.subperm_of_subset (h.wf.at_wf a) hsub).length_le
    simp only [List.length_map] at this
    simp only [len] at hl; omega
  · refine ⟨{ m with tick := m.tick + 1 },
      (m.keys ω a).2.all fun x => GoSet.contain { m with tick := m.tick + 1 } t x, ?_,
      h.tick (m.tick + 1), ?_⟩
    · simp only [MMem.keys, MMem.range]
      erw [rangeLoop_all (fun x => GoSet.contain { m with tick := m.tick + 1 } t x)]
      rfl
    · rw [List.all_eq_true]
      have hk := fun x => keys_mem h.wf ω a x
      constructor
      · intro hall x hx
        exact (h.contain ht x).1 (hall x ((hk x).2 ((h.has ha x).1 hx)))
      · intro hall x hx
        exact (h.contain ht x).2 (hall x ((h.has ha x).2 ((hk x).1 hx)))

/-- Each valid call of the model does what the specification says. -/
theorem sim_step (ω : Ord T) (h : Sim m s) (op : Op T) (hv : Valid s.ok op) :
    ∃ m' r s', exec ω m op = some (m', r) ∧ s.Step op r s' ∧ Sim m' s' := by
  cases op with
  | new =>
    obtain ⟨s', hc, hs⟩ := h.creates (P := fun _ => False) (make_sets h.wf) (fun x => by simp)
    exact ⟨_, _, s', rfl, ⟨_, rfl, hc⟩, hs⟩
  | len a =>
    obtain ⟨xs, hx, e⟩ := h.cardinal hv
    exact ⟨_, _, s, rfl, ⟨rfl, xs, hx, by rw [len, e]⟩, h⟩
  | slice a =>
    obtain ⟨h1, h2, _⟩ := MMem.keys_spec h.wf ω a
    exact ⟨_, _, s, rfl, ⟨rfl, _, ⟨h1, fun x => by rw [h.has hv]; exact h2 x⟩, rfl⟩, h.tick _⟩
  | isEmpty a =>
    obtain ⟨xs, hx, e⟩ := h.cardinal hv
    refine ⟨_, _, s, rfl, ⟨rfl, _, rfl, ?_⟩, h⟩
    simp only [isEmpty, len, beq_iff_eq, e]
    constructor
    · intro hn x hc
      rw [← hx.2, List.eq_nil_of_length_eq_zero hn] at hc; cases hc
    · intro hn
      cases xs with
      | nil => rfl
      | cons y ys => exact (hn y ((hx.2 y).1 (by simp))).elim
  | contain a v => exact ⟨_, _, s, rfl, ⟨rfl, _, rfl, h.contain hv v⟩, h⟩
  | clone a =>
    cases a with
    | none => exact ⟨m, _, s, rfl, ⟨rfl, rfl⟩, h⟩
    | some a =>
      obtain ⟨m', e, hs⟩ := MMem.clone_sets h.wf ω ((h.alive a).1 hv)
      obtain ⟨s', hc, hs⟩ := h.creates (P := s.mem a) hs (fun x => (h.mem a hv x).symm)
      exact ⟨m', .set (some m.fresh), s', by simp [exec, clone, e], ⟨_, rfl, hc⟩, hs⟩
  | clear a =>
    cases a with
    | none =>
      refine ⟨_, _, s, rfl, ⟨rfl, rfl, fun _ _ _ => Iff.rfl, fun _ e => by cases e⟩, ?_⟩
      have : clear ω m none = { m with tick := m.tick + 1 } := by
        have := (ω.perm m.tick (m.at none)).eq_nil
        simp only [clear, MMem.clearMap, MMem.range]
        rw [this]; rfl
      rw [this]; exact h.tick _
    | some a =>
      obtain ⟨s', hb, hs⟩ := h.sets hv (P := fun _ => False)
        (MMem.clear_sets h.wf ω ((h.alive a).1 hv)) (fun x => by simp)
      exact ⟨_, _, s', rfl, ⟨rfl, hb⟩, hs⟩
  | push a vs =>
    obtain ⟨hok, hn⟩ := hv
    obtain ⟨a, rfl⟩ := Option.ne_none_iff_exists'.1 hn
    have : ∀ (vs : List T) (m : Mem T), m.WF → a < m.fresh →
        ∃ m', push m (some a) vs = some m' ∧
          m.Sets a (fun k => if k ∈ vs then some () else aget (m.maps a) k) m' := by
      intro vs
      induction vs with
      | nil => intro m h _; exact ⟨m, rfl, (MMem.Sets.refl h a).congr fun k => by simp⟩
      | cons v vs ih =>
        intro m h ha
        obtain ⟨m1, e1, s1⟩ := m.store_sets h ha v ()
        obtain ⟨m2, e2, s2⟩ := ih m1 s1.wf (by rw [s1.fresh]; exact ha)
        refine ⟨m2, by simp only [push, List.foldlM_cons, e1]; exact e2,
          (s1.trans s2).congr fun k => ?_⟩
        rw [s1.get]
        by_cases e : v = k
        · simp [e]
        · simp [e, Ne.symm e]
    obtain ⟨m', e, hs⟩ := this vs m h.wf ((h.alive a).1 hok)
    obtain ⟨s', hb, hs⟩ := h.sets hok (P := fun x => s.has (some a) x ∨ x ∈ vs) hs (fun x => by
      rw [h.has hok]
      by_cases e : x ∈ vs <;> simp [e, MMem.at])
    exact ⟨m', .set (some a), s', by simp [exec, e], ⟨rfl, hb⟩, hs⟩
  | insert a v =>
    obtain ⟨hok, hn⟩ := hv
    obtain ⟨a, rfl⟩ := Option.ne_none_iff_exists'.1 hn
    obtain ⟨m', e, hs⟩ := insert_sets h.wf ((h.alive a).1 hok) v
    obtain ⟨s', hb, hs⟩ := h.sets hok (P := fun x => s.has (some a) x ∨ x = v) hs (fun x => by
      rw [h.has hok]
      by_cases e : x = v <;> simp [e, MMem.at])
    refine ⟨m', .bool (!contain m (some a) v), s', by simp [exec, e], ⟨⟨_, rfl, ?_⟩, hb⟩, hs⟩
    rw [← h.contain hok]; simp
  | remove a v =>
    obtain ⟨s', hb, hs, hr⟩ := h.remove hv v
    exact ⟨_, _, s', rfl, ⟨⟨_, rfl, hr⟩, hb⟩, hs⟩
  | containAndRemove a v =>
    obtain ⟨s', hb, hs, hr⟩ := h.remove hv v
    exact ⟨_, _, s', rfl, ⟨⟨_, rfl, hr⟩, hb⟩, hs⟩
  | copyFrom a t =>
    obtain ⟨hok, hn, ht⟩ := hv
    obtain ⟨a, rfl⟩ := Option.ne_none_iff_exists'.1 hn
    obtain ⟨m', e, hs⟩ := MMem.copy_sets h.wf ω ((h.alive a).1 hok) t
    obtain ⟨s', hb, hs⟩ := h.sets hok (P := fun x => s.has (some a) x ∨ s.has t x) hs (fun x => by
      rw [h.has hok, h.has ht, or_comm]
      cases aget (m.at t) x <;> simp [MMem.at])
    exact ⟨m', .set (some a), s', by simp [exec, copyFrom, e], ⟨rfl, hb⟩, hs⟩
  | equal a t =>
    obtain ⟨ha, ht⟩ := hv
    have hsim : Sim (equal ω m a t).1 s := by
      simp only [equal, MMem.equalFunc]
      split
      · exact h
      · exact h.tick _
    refine ⟨_, .bool (equal ω m a t).2, s, rfl, ⟨rfl, _, rfl, ?_⟩, hsim⟩
    rw [equal]
    rw [MMem.equalFunc_spec h.wf]
    refine forall_congr' fun x => ?_
    rw [h.has ha, h.has ht]
    cases aget (m.at a) x <;> cases aget (m.at t) x <;> simp
  | isSubSet a t =>
    obtain ⟨m', b, e, hs, hb⟩ := h.isSubSet ω hv.1 hv.2
    exact ⟨m', .bool b, s, by simp [exec, e], ⟨rfl, _, rfl, hb⟩, hs⟩
  | difference a t =>
    obtain ⟨ha, ht⟩ := hv
    have ha' := h.okm ha
    have ht' := h.okm ht
    obtain ⟨m', e, hs⟩ := filter_sets h.wf ω ha' (q := fun m x => !contain m t x)
      (p := fun x => !contain m t x) (fun m' hm x => by rw [contain_other ht' hm])
      (make_sets h.wf)
    obtain ⟨s', hc, hs⟩ := h.creates (P := fun x => s.has a x ∧ ¬ s.has t x) hs (fun x => by
      rw [h.has ha, ← h.contain ht]
      cases aget (m.at a) x <;> cases contain m t x <;> simp)
    have hd : difference ω m a t = some (m', some m.fresh) := by
      simp only [difference, new]
      show (rangeLoop _ (m.make.1.keys ω a).1 (m.make.1.keys ω a).2).bind _ = _
      erw [e]; rfl
    exact ⟨m', .set (some m.fresh), s', by simp [exec, hd], ⟨_, rfl, hc⟩, hs⟩
  | intersection a t =>
    obtain ⟨ha, ht⟩ := hv
    have ha' := h.okm ha
    have ht' := h.okm ht
    obtain ⟨m', e, hs⟩ := filter_sets h.wf ω ha' (q := fun m x => contain m t x)
      (p := fun x => contain m t x) (fun m' hm x => by rw [contain_other ht' hm])
      (make_sets h.wf)
    obtain ⟨s', hc, hs⟩ := h.creates (P := fun x => s.has a x ∧ s.has t x) hs (fun x => by
      rw [h.has ha, ← h.contain ht]
      cases aget (m.at a) x <;> cases contain m t x <;> simp)
    have hd : intersection ω m a t = some (m', some m.fresh) := by
      simp only [intersection, new]
      show (rangeLoop _ (m.make.1.keys ω a).1 (m.make.1.keys ω a).2).bind _ = _
      erw [e]; rfl
    exact ⟨m', .set (some m.fresh), s', by simp [exec, hd], ⟨_, rfl, hc⟩, hs⟩
  | symmetricDifference a t =>
    obtain ⟨ha, ht⟩ := hv
    have ha' := h.okm ha
    have ht' := h.okm ht
    obtain ⟨m1, e1, hs1⟩ := filter_sets h.wf ω ha' (q := fun m x => !contain m t x)
      (p := fun x => !contain m t x) (fun m' hm x => by rw [contain_other ht' hm])
      (make_sets h.wf)
    obtain ⟨m', e, hs⟩ := filter_sets h.wf ω ht' (q := fun m x => !contain m a x)
      (p := fun x => !contain m a x) (fun m' hm x => by rw [contain_other ha' hm]) hs1
    obtain ⟨s', hc, hs⟩ := h.creates
      (P := fun x => (s.has a x ∧ ¬ s.has t x) ∨ (s.has t x ∧ ¬ s.has a x)) hs (fun x => by
      rw [← h.contain ha, ← h.contain ht]
      have c1 : (aget (m.at a) x).isSome = contain m a x := rfl
      have c2 : (aget (m.at t) x).isSome = contain m t x := rfl
      rw [c1, c2]
      cases contain m a x <;> cases contain m t x <;> simp)
    have hd : symmetricDifference ω m a t = some (m', some m.fresh) := by
      simp only [symmetricDifference, new]
      show (rangeLoop _ (m.make.1.keys ω a).1 (m.make.1.keys ω a).2).bind _ = _
      erw [e1]
      simp only [Option.bind_some]
      show (rangeLoop _ (m1.keys ω t).1 (m1.keys ω t).2).bind _ = _
      erw [e]; rfl
    exact ⟨m', .set (some m.fresh), s', by simp [exec, hd], ⟨_, rfl, hc⟩, hs⟩
  | union a ts =>
    obtain ⟨ha, ht⟩ := hv
    have key : ∀ (ts : List MRef) (m1 : Mem T) (g : T → Option Unit), (∀ t ∈ ts, m.Ok t) →
        m.make.1.Sets m.fresh g m1 → ∃ m', ts.foldlM (fun m1 v => addAll ω m1 (some m.fresh) v) m1
          = some m' ∧ m.make.1.Sets m.fresh
            (fun k => if ∃ t ∈ ts, (aget (m.at t) k).isSome then some () else g k) m' := by
      intro ts
      induction ts with
      | nil => intro m1 g _ h1; exact ⟨m1, rfl, h1.congr fun k => by simp⟩
      | cons t ts ih =>
        intro m1 g hts h1
        have hf : m.fresh < m1.fresh := by rw [h1.fresh]; simp [MMem.make]
        obtain ⟨m2, e2, s2⟩ := addAll_sets h1.wf ω hf t
        obtain ⟨m3, e3, s3⟩ := ih m2 _ (fun t ht => hts t (by simp [ht])) (h1.trans s2)
        refine ⟨m3, by simp only [List.foldlM_cons, e2]; exact e3, s3.congr fun k => ?_⟩
        have htk := hts t (by simp)
        rw [at_other (fun b hb => h1.other b hb) (ok_ne m htk), at_make m htk, h1.get]
        by_cases hk : ∃ t ∈ ts, (aget (m.at t) k).isSome
        · rw [if_pos hk, if_pos]
          obtain ⟨t, ht, hk⟩ := hk
          exact ⟨t, by simp [ht], hk⟩
        · rw [if_neg hk]
          cases hc : aget (m.at t) k with
          | some u => rw [if_pos ⟨t, by simp, by simp [hc]⟩]; rfl
          | none =>
            rw [if_neg]
            · rfl
            · rintro ⟨t', ht', hk'⟩
              rcases List.mem_cons.1 ht' with rfl | ht'
              · simp [hc] at hk'
              · exact hk ⟨t', ht', hk'⟩
    obtain ⟨m1, e1, hs1⟩ := key [a] m.make.1 _ (by simpa using h.okm ha) (make_sets h.wf)
    obtain ⟨m', e, hs⟩ := key ts m1 _ (fun t htt => h.okm (ht t htt)) hs1
    obtain ⟨s', hc, hs⟩ := h.creates (P := fun x => s.has a x ∨ ∃ t ∈ ts, s.has t x) hs (fun x => by
      have : (∃ t ∈ ts, s.has t x) ↔ ∃ t ∈ ts, (aget (m.at t) x).isSome := by
        constructor <;> rintro ⟨t, h1, h2⟩
        · exact ⟨t, h1, (h.has (ht t h1) x).1 h2⟩
        · exact ⟨t, h1, (h.has (ht t h1) x).2 h2⟩
      rw [this, h.has ha]
      by_cases hk : ∃ t ∈ ts, (aget (m.at t) x).isSome
      · simp only [if_pos hk]; simp [hk]
      · simp only [if_neg hk]
        have hk' : (∃ t ∈ ts, (aget (m.at t) x).isSome) ↔ False := ⟨hk, False.elim⟩
        rw [hk']
        cases hx : aget (m.at a) x <;> simp [hx])
    have hd : union ω m a ts = some (m', some m.fresh) := by
      simp only [List.foldlM_cons, List.foldlM_nil] at e1
      have e1' : addAll ω m.make.1 (some m.fresh) a = some m1 := by
        cases hx : addAll ω m.make.1 (some m.fresh) a with
        | none => rw [hx] at e1; cases e1
        | some y => rw [hx] at e1; exact e1
      simp only [union, new]
      show (addAll ω m.make.1 (some m.fresh) a).bind _ = _
      rw [e1']; simp only [Option.bind_some]
      show Option.bind (List.foldlM (fun m1 v => addAll ω m1 (some m.fresh) v) m1 ts) _ = _
      rw [e]; rfl
    exact ⟨m', .set (some m.fresh), s', by simp [exec, hd], ⟨_, rfl, hc⟩, hs⟩

theorem Sim.empty : Sim (MMem.empty : Mem T) St.empty :=
  ⟨MMem.WF.empty, fun a => by simp [St.empty, MMem.empty], fun _ h => h.elim⟩

theorem Valid.mono {ok ok' : Option Nat → Prop} (h : ∀ r, ok r → ok' r) {op : Op T}
    (hv : Valid ok op) : Valid ok' op := by
  cases op <;> simp only [Valid] at hv ⊢
  all_goals first
    | exact h _ hv
    | exact ⟨h _ hv.1, hv.2⟩
    | exact ⟨h _ hv.1, hv.2.1, h _ hv.2.2⟩
    | exact ⟨h _ hv.1, h _ hv.2⟩
    | exact ⟨h _ hv.1, fun t ht => h _ (hv.2 t ht)⟩

/-- Handles stay alive, and what a call returns is alive. -/
theorem step_ok {op : Op T} {r : Res T} (h : s.Step op r s') (hv : Valid s.ok op) :
    (∀ a, s.alive a → s'.alive a) ∧ ∀ x, r = .set x → s'.ok x := by
  have hb : ∀ {r : Option Nat} {P : T → Prop}, s.Becomes r P s' → s.ok r →
      (∀ a, s.alive a → s'.alive a) ∧ s'.ok r := by
    intro r P hb hr
    refine ⟨fun a ha => by rw [hb.1]; exact ha, ?_⟩
    cases r with
    | none => trivial
    | some a => show s'.alive a; rw [hb.1]; exact hr
  have hc : ∀ {r : Option Nat} {P : T → Prop}, s.Creates r P s' →
      (∀ a, s.alive a → s'.alive a) ∧ s'.ok r := by
    rintro r P ⟨n, rfl, _, ha, _⟩
    exact ⟨fun a h => (ha a).2 (Or.inr h), (ha n).2 (Or.inl rfl)⟩
  cases op <;> simp only [St.Step, Valid] at h hv
  case new => obtain ⟨n, rfl, h⟩ := h; exact ⟨(hc h).1, fun x e => by cases e; exact (hc h).2⟩
  case len => obtain ⟨rfl, xs, _, rfl⟩ := h; exact ⟨fun _ h => h, fun x e => by cases e⟩
  case slice => obtain ⟨rfl, xs, _, rfl⟩ := h; exact ⟨fun _ h => h, fun x e => by cases e⟩
  case isEmpty => obtain ⟨rfl, xs, rfl, _⟩ := h; exact ⟨fun _ h => h, fun x e => by cases e⟩
  case contain => obtain ⟨rfl, xs, rfl, _⟩ := h; exact ⟨fun _ h => h, fun x e => by cases e⟩
  case equal => obtain ⟨rfl, xs, rfl, _⟩ := h; exact ⟨fun _ h => h, fun x e => by cases e⟩
  case isSubSet => obtain ⟨rfl, xs, rfl, _⟩ := h; exact ⟨fun _ h => h, fun x e => by cases e⟩
  case clone a =>
    cases a with
    | none => obtain ⟨rfl, rfl⟩ := h; exact ⟨fun _ h => h, fun x e => by cases e; trivial⟩
    | some a => obtain ⟨n, rfl, h⟩ := h; exact ⟨(hc h).1, fun x e => by cases e; exact (hc h).2⟩
  case clear => obtain ⟨rfl, h⟩ := h; exact ⟨(hb h hv).1, fun x e => by cases e; exact (hb h hv).2⟩
  case push =>
    obtain ⟨rfl, h⟩ := h; exact ⟨(hb h hv.1).1, fun x e => by cases e; exact (hb h hv.1).2⟩
  case copyFrom =>
    obtain ⟨rfl, h⟩ := h; exact ⟨(hb h hv.1).1, fun x e => by cases e; exact (hb h hv.1).2⟩
  case insert => obtain ⟨⟨b, rfl, _⟩, h⟩ := h; exact ⟨(hb h hv.1).1, fun x e => by cases e⟩
  case remove => obtain ⟨⟨b, rfl, _⟩, h⟩ := h; exact ⟨(hb h hv).1, fun x e => by cases e⟩
  case containAndRemove => obtain ⟨⟨b, rfl, _⟩, h⟩ := h; exact ⟨(hb h hv).1, fun x e => by cases e⟩
  case difference =>
    obtain ⟨n, rfl, h⟩ := h; exact ⟨(hc h).1, fun x e => by cases e; exact (hc h).2⟩
  case symmetricDifference =>
    obtain ⟨n, rfl, h⟩ := h; exact ⟨(hc h).1, fun x e => by cases e; exact (hc h).2⟩
  case intersection =>
    obtain ⟨n, rfl, h⟩ := h; exact ⟨(hc h).1, fun x e => by cases e; exact (hc h).2⟩
  case union => obtain ⟨n, rfl, h⟩ := h; exact ⟨(hc h).1, fun x e => by cases e; exact (hc h).2⟩

theorem run_given {tr : List (Op T × Res T)} (h : Run tr s) : ∀ r, Given tr r → s.ok r := by
  induction h with
  | nil =>
    rintro r (rfl | ⟨c, hc, _⟩)
    · trivial
    · cases hc
  | @snoc tr s op r s' _ hv hs ih =>
    have := step_ok hs (Valid.mono ih hv)
    rintro x (rfl | ⟨c, hc, he⟩)
    · trivial
    · rcases List.mem_append.1 hc with hc | hc
      · have := ih x (Or.inr ⟨c, hc, he⟩)
        cases x with
        | none => trivial
        | some a => exact (step_ok hs (Valid.mono ih hv)).1 a this
      · simp only [List.mem_singleton] at hc; subst hc
        exact this.2 x he

theorem run_sim {ω : Ord T} {tr : List (Op T × Res T)} (h : MRun ω tr m) :
    ∃ s, Run tr s ∧ Sim m s := by
  induction h with
  | nil => exact ⟨_, .nil, .empty⟩
  | snoc _ hv he ih =>
    obtain ⟨s, hr, hs⟩ := ih
    obtain ⟨m', r', s', e, hst, hs'⟩ := sim_step ω hs _ (Valid.mono (run_given hr) hv)
    rw [e] at he; cases he
    exact ⟨s', .snoc hr hv hst, hs'⟩

/-- **C47.**  For every program that only uses set handles it was given (nil included) and inserts
into non-nil sets, and for all map iteration orders: every history of calls of the code is a
history of mathematical sets — `Contain` answers membership, `Insert` returns true iff the value
was absent, `Remove` iff it was present, `Len` counts the members, and so on for every method —
and no next call panics.  The specification (`Spec.St.Step`) knows nothing about maps. -/
theorem C47_history (ω : Ord T) {tr : List (Op T × Res T)} {m : Mem T} (h : MRun ω tr m) :
    (∃ s, Run tr s) ∧ ∀ op, Valid (Given tr) op → ∃ m' r, exec ω m op = some (m', r) := by
  obtain ⟨s, hr, hs⟩ := run_sim h
  refine ⟨⟨s, hr⟩, fun op hv => ?_⟩
  obtain ⟨m', r', s', e, _⟩ := sim_step ω hs op (Valid.mono (run_given hr) hv)
  exact ⟨m', r', e⟩

/-- Visiting maps from the last entry to the first. -/
def backwards : Ord Nat := ⟨fun _ l => l.reverse, fun _ l => List.reverse_perm l⟩

/-- A history: `a := New(); a.Insert(1) = true; a.Insert(1) = false; b := a.Clone();
a.Remove(1) = true; a.Len() = 0; b.Len() = 1`. -/
example : ∃ m, MRun backwards [(.new, .set (some 0)), (.insert (some 0) 1, .bool true),
    (.insert (some 0) 1, .bool false), (.clone (some 0), .set (some 1)),
    (.remove (some 0) 1, .bool true), (.len (some 0), .int 0), (.len (some 1), .int 1)] m := by
  refine ⟨_, .snoc (tr := [_, _, _, _, _, _]) (.snoc (tr := [_, _, _, _, _])
    (.snoc (tr := [_, _, _, _]) (.snoc (tr := [_, _, _]) (.snoc (tr := [_, _]) (.snoc (tr := [_])
    (.snoc .nil trivial rfl) ?_ rfl) ?_ rfl) ?_ rfl) ?_ rfl) ?_ rfl) ?_ rfl⟩ <;>
    simp [Valid, Given]

/-- Inserting into a nil set does panic. -/
example : exec backwards MMem.empty (.insert none 1) = none := rfl

/-! ## Single calls, observed through `Contain` -/

/-- The sets a memory implements. -/
def absOf (m : Mem T) : St T :=
  { alive := fun a => a < m.fresh
    mem := fun a x => contain m (some a) x = true }

theorem sim_absOf (h : m.WF) : Sim m (absOf m) := ⟨h, fun _ => Iff.rfl, fun _ _ _ => Iff.rfl⟩

theorem absOf_ok {r : MRef} : (absOf m).ok r ↔ m.Ok r := by cases r <;> rfl

theorem absOf_has {r : MRef} (x : T) : (absOf m).has r x ↔ contain m r x = true := by
  cases r <;> simp [St.has, absOf, contain, MMem.at, aget]

/-- The call made a new set with the members `P` and changed no other set. -/
def Makes (m : Mem T) (res : Option (Mem T × MRef)) (P : T → Prop) : Prop :=
  ∃ m' d, res = some (m', d) ∧ d ≠ none ∧ ¬ m.Ok d ∧ m'.WF ∧ m'.Ok d ∧
    (∀ x, contain m' d x = true ↔ P x) ∧
    ∀ r, m.Ok r → m'.Ok r ∧ ∀ x, contain m' r x = contain m r x

theorem Makes.of_creates {n : MRef} {P : T → Prop} (hc : (absOf m).Creates n P s') (hs : Sim m' s') :
    Makes m (some (m', n)) P := by
  obtain ⟨n, rfl, hn, ha, ho, hP⟩ := hc
  refine ⟨m', some n, rfl, by simp, hn, hs.wf, (hs.alive n).1 ((ha n).2 (Or.inl rfl)), fun x => ?_,
    fun r hr => ?_⟩
  · rw [← hP]
    exact ((hs.mem n ((ha n).2 (Or.inl rfl)) x)).symm
  · cases r with
    | none => exact ⟨trivial, fun x => rfl⟩
    | some a =>
      have h1 : s'.alive a := (ha a).2 (Or.inr hr)
      refine ⟨(hs.alive a).1 h1, fun x => ?_⟩
      rw [Bool.eq_iff_iff]
      exact (hs.mem a h1 x).symm.trans (ho a hr x)

/-- **C44, `Difference`.**  For all sets (nil, equal or not) in any memory and all iteration
orders. -/
theorem C44_difference (ω : Ord T) (h : m.WF) {a t : MRef} (ha : m.Ok a) (ht : m.Ok t) :
    Makes m (difference ω m a t) (fun x => contain m a x = true ∧ ¬ contain m t x = true) := by
  obtain ⟨m', r, s', e, ⟨n, rfl, hc⟩, hs⟩ := sim_step ω (sim_absOf h) (.difference a t)
    ⟨absOf_ok.2 ha, absOf_ok.2 ht⟩
  simp only [absOf_has] at hc
  have : difference ω m a t = some (m', n) := by
    cases hd : difference ω m a t with
    | none => simp [exec, hd] at e
    | some p => simp [exec, hd] at e; simp [← e.1, ← e.2]
  rw [this]; exact .of_creates hc hs

/-- **C44, `SymmetricDifference`.** -/
theorem C44_symmetricDifference (ω : Ord T) (h : m.WF) {a t : MRef} (ha : m.Ok a) (ht : m.Ok t) :
    Makes m (symmetricDifference ω m a t) (fun x =>
      (contain m a x = true ∧ ¬ contain m t x = true) ∨
      (contain m t x = true ∧ ¬ contain m a x = true)) := by
  obtain ⟨m', r, s', e, ⟨n, rfl, hc⟩, hs⟩ := sim_step ω (sim_absOf h) (.symmetricDifference a t)
    ⟨absOf_ok.2 ha, absOf_ok.2 ht⟩
  simp only [absOf_has] at hc
  have : symmetricDifference ω m a t = some (m', n) := by
    cases hd : symmetricDifference ω m a t with
    | none => simp [exec, hd] at e
    | some p => simp [exec, hd] at e; simp [← e.1, ← e.2]
  rw [this]; exact .of_creates hc hs

/-- **C44, `Intersection`.** -/
theorem C44_intersection (ω : Ord T) (h : m.WF) {a t : MRef} (ha : m.Ok a) (ht : m.Ok t) :
    Makes m (intersection ω m a t) (fun x => contain m a x = true ∧ contain m t x = true) := by
  obtain ⟨m', r, s', e, ⟨n, rfl, hc⟩, hs⟩ := sim_step ω (sim_absOf h) (.intersection a t)
    ⟨absOf_ok.2 ha, absOf_ok.2 ht⟩
  simp only [absOf_has] at hc
  have : intersection ω m a t = some (m', n) := by
    cases hd : intersection ω m a t with
    | none => simp [exec, hd] at e
    | some p => simp [exec, hd] at e; simp [← e.1, ← e.2]
  rw [this]; exact .of_creates hc hs

/-- **C44, `Union`** of any number of sets. -/
theorem C44_union (ω : Ord T) (h : m.WF) {a : MRef} {ts : List MRef} (ha : m.Ok a)
    (ht : ∀ t ∈ ts, m.Ok t) :
    Makes m (union ω m a ts) (fun x => contain m a x = true ∨ ∃ t ∈ ts, contain m t x = true) := by
  obtain ⟨m', r, s', e, ⟨n, rfl, hc⟩, hs⟩ := sim_step ω (sim_absOf h) (.union a ts)
    ⟨absOf_ok.2 ha, fun t h => absOf_ok.2 (ht t h)⟩
  simp only [absOf_has] at hc
  have : union ω m a ts = some (m', n) := by
    cases hd : union ω m a ts with
    | none => simp [exec, hd] at e
    | some p => simp [exec, hd] at e; simp [← e.1, ← e.2]
  rw [this]; exact .of_creates hc hs

/-- A memory with the sets {1,2} and {2,3}. -/
def twoSets : Mem Nat :=
  { maps := fun a => if a = 0 then [(1, ()), (2, ())] else if a = 1 then [(2, ()), (3, ())] else []
    fresh := 2
    tick := 0 }

theorem twoSets_wf : twoSets.WF := by
  constructor
  · intro a; simp only [twoSets]; split
    · simp [AWF]
    · split <;> simp [AWF]
  · intro a ha; simp only [twoSets] at ha ⊢
    rw [if_neg (by omega), if_neg (by omega)]

example : ((symmetricDifference backwards twoSets (some 0) (some 1)).map fun p =>
    (p.2, p.1.at p.2)) = some (some 2, [(1, ()), (3, ())]) := rfl

/-- **C45.**  `IsSubSet` decides inclusion, whatever the iteration order. -/
theorem C45_isSubSet (ω : Ord T) (h : m.WF) {a t : MRef} (ha : m.Ok a) (ht : m.Ok t) :
    ∃ m' b, isSubSet ω m a t = some (m', b) ∧
      (b = true ↔ ∀ x, contain m a x = true → contain m t x = true) := by
  obtain ⟨m', b, e, _, hb⟩ := (sim_absOf h).isSubSet ω (absOf_ok.2 ha) (absOf_ok.2 ht)
  exact ⟨m', b, e, by simpa only [absOf_has] using hb⟩

example : (isSubSet backwards twoSets (some 0) (some 1)).map (·.2) = some false := rfl
example : (isSubSet backwards twoSets none (some 1)).map (·.2) = some true := rfl

/-- **C46 is false of the code.**  {1,2} is not a superset of {2,3}, but `IsSupperSet` says so; and
every set is a superset of nil, but `IsSupperSet` denies it. -/
theorem C46_isSupperSet_false :
    ¬ (∀ (ω : Ord Nat) (m : Mem Nat) (a t : MRef), m.WF → m.Ok a → m.Ok t →
      ∃ m' b, isSupperSet ω m a t = some (m', b) ∧
        (b = true ↔ ∀ x, contain m t x = true → contain m a x = true)) := by
  intro hall
  obtain ⟨m', b, e, hb⟩ := hall backwards twoSets (some 0) (some 1) twoSets_wf
    (show 0 < 2 by decide) (show 1 < 2 by decide)
  have hb2 : b = true := by
    have : (isSupperSet backwards twoSets (some 0) (some 1)).map (·.2) = some true := rfl
    rw [e] at this; simpa using this
  have := hb.1 hb2 3 rfl
  cases this

/-- **C46, what holds.**  `IsSupperSet` always returns the negation of the documented answer: it is
true exactly if some element of `t` is not in `s`.  (Missing for the full statement: the code
negates the result of `IsSubSet`, set.go:115.) -/
theorem C46_isSupperSet_partial (ω : Ord T) (h : m.WF) {a t : MRef} (ha : m.Ok a) (ht : m.Ok t) :
    ∃ m' b, isSupperSet ω m a t = some (m', b) ∧
      (b = true ↔ ¬ ∀ x, contain m t x = true → contain m a x = true) := by
  obtain ⟨m', b, e, hb⟩ := C45_isSubSet ω h ht ha
  refine ⟨m', !b, by simp [isSupperSet, e], ?_⟩
  rw [← hb]; cases b <;> simp

example : (isSupperSet backwards twoSets (some 0) (some 0)).map (·.2) = some false := rfl

/-- **C48, `Equal`.**  Set equality, whatever the iteration order. -/
theorem C48_equal (ω : Ord T) (h : m.WF) {a t : MRef} (ha : m.Ok a) (ht : m.Ok t) :
    (equal ω m a t).2 = true ↔ ∀ x, contain m a x = contain m t x := by
  obtain ⟨m', r, s', e, ⟨_, b, rfl, hb⟩, hs⟩ := sim_step ω (sim_absOf h) (.equal a t)
    ⟨absOf_ok.2 ha, absOf_ok.2 ht⟩
  have : (equal ω m a t).2 = b := by
    have : some ((equal ω m a t).1, (Res.bool (equal ω m a t).2 : Res T)) = some (m', .bool b) := e
    simpa using (Prod.mk.inj (Option.some.inj this)).2
  rw [this, hb]
  exact forall_congr' fun x => by rw [absOf_has, absOf_has]; exact Bool.eq_iff_iff.symm

example : (equal backwards twoSets (some 0) (some 1)).2 = false := rfl

/-- **C48, `Clone`.**  A clone of a non-nil set is a new set that is `Equal` to the original in the
resulting memory; later calls on one do not affect the other (`C48_independent`). -/
theorem C48_clone (ω : Ord T) (h : m.WF) {a : Nat} (ha : m.Ok (some a)) :
    Makes m (clone ω m (some a)) (fun x => contain m (some a) x = true) ∧
    ∀ m' d, clone ω m (some a) = some (m', d) → ∀ ω', (equal ω' m' d (some a)).2 = true := by
  obtain ⟨m', e, hs⟩ := MMem.clone_sets h ω ha
  obtain ⟨s', hc, hs⟩ := (sim_absOf h).creates (P := fun x => contain m (some a) x = true) hs
    (fun x => Iff.rfl)
  have hm := Makes.of_creates hc hs
  have e' : clone ω m (some a) = some (m', some m.fresh) := e
  rw [e']
  refine ⟨hm, fun m'' d he ω' => ?_⟩
  cases he
  obtain ⟨m'', d, he, _, _, hw, hd, hx, hr⟩ := hm
  cases he
  rw [C48_equal ω' hw hd (hr _ ha).1]
  intro x
  rw [Bool.eq_iff_iff, hx, (hr _ ha).2]

/-- **C48, independence.**  A call that changes a set (`Insert`, `Remove`, `Clear`, `Push`,
`CopyFrom`) changes no other set. -/
theorem C48_independent (ω : Ord T) (h : m.WF) {a : MRef} (op : Op T) (hv : Valid m.Ok op)
    (hop : op = .clear a ∨ (∃ vs, op = .push a vs) ∨ (∃ v, op = .insert a v) ∨
      (∃ v, op = .remove a v) ∨ (∃ v, op = .containAndRemove a v) ∨ ∃ t, op = .copyFrom a t)
    {r : Res T} (he : exec ω m op = some (m', r)) {b : MRef} (hb : m.Ok b) (hne : b ≠ a) (x : T) :
    contain m' b x = contain m b x := by
  obtain ⟨m'', r', s', e, hst, hs⟩ := sim_step ω (sim_absOf h) op
    (Valid.mono (fun _ h => absOf_ok.2 h) hv)
  rw [e] at he; cases he
  cases b with
  | none => rfl
  | some b =>
    have key : ∀ {P : T → Prop}, (absOf m).Becomes a P s' → contain m' (some b) x = contain m (some b) x := by
      intro P hB
      rw [Bool.eq_iff_iff]
      have hal : s'.alive b := by rw [hB.1]; exact hb
      exact (hs.mem b hal x).symm.trans (hB.2.1 b hne x)
    rcases hop with rfl | ⟨_, rfl⟩ | ⟨_, rfl⟩ | ⟨_, rfl⟩ | ⟨_, rfl⟩ | ⟨_, rfl⟩
    all_goals exact key hst.2

example : ((clone backwards twoSets (some 0)).bind fun p =>
    (insert p.1 p.2 9).map fun q => (contain q.1 p.2 9, contain q.1 (some 0) 9, contain q.1 p.2 1))
    = some (true, false, true) := rfl

end Verif.GoSet
