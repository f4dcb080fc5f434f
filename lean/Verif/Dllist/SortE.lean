import Verif.Dllist.Frame
import Mathlib.Tactic.Linarith
import Mathlib.Data.List.Nodup
/-!
# `Sort` and the function it is given

The comparison function may have effects of its own and may panic.  It does not use the lists.
-/
namespace Verif.Dllist
open Spec (Op Res St Client SRun Safe valsOf)
variable {T A : Type} {m m' m'' : Mem T} {s : St T} {S S' S'' : Nat → List Nat} {X Y : Nat → Prop}

/-- `Sort(cmpLess)` (dllist.go:255-289) as in `sort`, for a `cmpLess` that works on a state `A` of its own (a counter, a log) and
gives `none` where it panics.  The flag says that `Sort` returned; with `false` the panic of `cmpLess` went through it, and the memory
is the one that whoever recovers from it finds. -/
def sortE (less : A → T → T → A × Option Bool) : Nat → Mem T → A → Nat → Option (Mem T × A × Bool)
  | 0, _, _, _ => none
  | fuel + 1, m, a, l =>
    if m.len l ≤ 1 then some (m, a, true)
    else do
      let (m, f) := front m l
      let f ← f
      let pivot ← value m f
      let (m, smaller) := new m
      let (m, larger) := new m
      let (m, f) := front m l
      let f ← f
      let (m, a, ok) ← rangeLoop (fun m a e => do
        let v ← value m e
        match less a v pivot with
        | (a, none) => some (m, a, false)
        | (a, some true) => do
          let (m, _) ← pushBack m smaller v
          some (m, a, true)
        | (a, some false) => do
          let (m, _) ← pushBack m larger v
          some (m, a, true)) fuel m a (elNext m f)
      if ok then do
        let (m, a, ok) ← sortE less fuel m a smaller
        if ok then do
          let (m, a, ok) ← sortE less fuel m a larger
          if ok then do
            let m := clear m l
            let (m, _, _) ← range (fun m (_ : Unit) e => do
              let v ← value m e
              let (m, _) ← pushBack m l v
              some (m, (), true)) fuel m () smaller
            let (m, _) ← pushBack m l pivot
            let (m, _, _) ← range (fun m (_ : Unit) e => do
              let v ← value m e
              let (m, _) ← pushBack m l v
              some (m, (), true)) fuel m () larger
            some (m, a, true)
          else some (m, a, false)
        else some (m, a, false)
      else some (m, a, false)

/-! ## Values and owners stay -/

/-- Elements keep their value and their owner. -/
def Quiet (m m' : Mem T) : Prop :=
  m.fresh ≤ m'.fresh ∧ ∀ n < m.fresh, m'.val n = m.val n ∧ m'.owner (.node n) = m.owner (.node n)

theorem Quiet.refl : Quiet m m := ⟨Nat.le_refl _, fun _ _ => ⟨rfl, rfl⟩⟩

theorem Quiet.trans (h1 : Quiet m m') (h2 : Quiet m' m'') : Quiet m m'' :=
  ⟨Nat.le_trans h1.1 h2.1, fun n hn => by
    obtain ⟨a, b⟩ := h1.2 n hn
    obtain ⟨c, d⟩ := h2.2 n (Nat.lt_of_lt_of_le hn h1.1)
    exact ⟨c.trans a, d.trans b⟩⟩

theorem lazyInit_quiet {l : Nat} : Quiet m (lazyInit m l) := by
  unfold lazyInit
  split
  · exact .refl
  · exact ⟨Nat.le_refl _, fun _ _ => ⟨rfl, rfl⟩⟩

theorem front_quiet {l : Nat} : Quiet m (front m l).1 := by
  unfold front
  split
  · exact .refl
  · exact lazyInit_quiet

theorem new_quiet : Quiet m (new m).1 := ⟨Nat.le_refl _, fun _ _ => ⟨rfl, rfl⟩⟩

theorem clear_quiet {l : Nat} : Quiet m (clear m l) := ⟨Nat.le_refl _, fun _ _ => ⟨rfl, rfl⟩⟩

theorem insertValue_quiet {l n : Nat} {v : T} {at_ : Option Ptr} (e : insertValue m l v at_ = some (m', n)) : Quiet m m' := by
  simp only [insertValue, Dllist.insert, Option.bind_eq_bind, Option.bind_eq_some_iff] at e
  obtain ⟨m2, ⟨a, _, p, hp, q, hq, h1⟩, e⟩ := e
  simp only [Option.some.injEq, Prod.mk.injEq] at e h1
  obtain ⟨rfl, _⟩ := e
  subst h1
  refine ⟨by simp [Mem.setNext, Mem.setPrev, Mem.setOwner, Mem.setLen], fun n hn => ?_⟩
  have : n ≠ m.fresh := by omega
  simp [Mem.setNext, Mem.setPrev, Mem.setOwner, Mem.setLen, upd, this]

theorem pushBack_quiet {l n : Nat} {v : T} (e : pushBack m l v = some (m', n)) : Quiet m m' :=
  lazyInit_quiet.trans (insertValue_quiet e)

theorem rangeLoop_quiet {body : Mem T → A → Ptr → Option (Mem T × A × Bool)}
    (hb : ∀ m a p m' a' c, body m a p = some (m', a', c) → Quiet m m') :
    ∀ (fuel : Nat) {m m' : Mem T} {a a' : A} {p : Option Ptr} {c : Bool}, rangeLoop body fuel m a p = some (m', a', c) → Quiet m m' := by
  intro fuel
  induction fuel with
  | zero => intro m m' a a' p c e; simp [rangeLoop] at e
  | succ k ih =>
    intro m m' a a' p c e
    cases p with
    | none => simp only [rangeLoop, Option.some.injEq, Prod.mk.injEq] at e; obtain ⟨rfl, _⟩ := e; exact .refl
    | some p =>
      simp only [rangeLoop, Option.bind_eq_bind, Option.bind_eq_some_iff] at e
      obtain ⟨⟨m1, a1, c1⟩, e1, e⟩ := e
      have k1 := hb _ _ _ _ _ _ e1
      cases c1 with
      | false =>
        simp only [Bool.false_eq_true, if_false, Option.some.injEq, Prod.mk.injEq] at e
        obtain ⟨rfl, _⟩ := e
        exact k1
      | true =>
        simp only [if_true] at e
        exact k1.trans (ih e)

theorem copy_quiet {l : Nat} {fuel o : Nat} {a' : Unit} {c : Bool} (e : range (fun m (_ : Unit) e => do
      let v ← value m e
      let (m, _) ← pushBack m l v
      some (m, (), true)) fuel m () o = some (m', a', c)) : Quiet m m' := by
  unfold range at e
  refine front_quiet.trans (rangeLoop_quiet (fun m a p m' a' c e => ?_) fuel e)
  simp only [Option.bind_eq_bind, Option.bind_eq_some_iff] at e
  obtain ⟨v, _, ⟨m1, n⟩, e1, e⟩ := e
  simp only [Option.some.injEq, Prod.mk.injEq] at e
  obtain ⟨rfl, _⟩ := e
  exact pushBack_quiet e1

/-- The function of the first loop. -/
def splitBody (less : A → T → T → A × Option Bool) (pivot : T) (smaller larger : Nat) (m : Mem T) (a : A) (e : Ptr) : Option (Mem T × A × Bool) := do
  let v ← value m e
  match less a v pivot with
  | (a, none) => some (m, a, false)
  | (a, some true) => do
    let (m, _) ← pushBack m smaller v
    some (m, a, true)
  | (a, some false) => do
    let (m, _) ← pushBack m larger v
    some (m, a, true)

/-- What a step of the first loop does. -/
theorem splitBody_cases {less : A → T → T → A × Option Bool} {pivot : T} {sm lg : Nat} {a a' : A} {p : Ptr} {c : Bool}
    (e : splitBody less pivot sm lg m a p = some (m', a', c)) :
    ∃ v, value m p = some v ∧ a' = (less a v pivot).1 ∧ ((less a v pivot).2 = none ∧ c = false ∧ m' = m ∨
      (∃ n, (less a v pivot).2 = some true ∧ c = true ∧ pushBack m sm v = some (m', n)) ∨
      ∃ n, (less a v pivot).2 = some false ∧ c = true ∧ pushBack m lg v = some (m', n)) := by
  simp only [splitBody, Option.bind_eq_bind, Option.bind_eq_some_iff] at e
  obtain ⟨v, hv, e⟩ := e
  refine ⟨v, hv, ?_⟩
  split at e
  · next a1 h => simp only [Option.some.injEq, Prod.mk.injEq] at e; obtain ⟨rfl, rfl, rfl⟩ := e; simp [h]
  · next a1 h =>
    simp only [Option.bind_eq_some_iff, Option.some.injEq, Prod.mk.injEq] at e
    obtain ⟨⟨m1, n⟩, e1, rfl, rfl, rfl⟩ := e
    simp [h]; exact ⟨n, e1⟩
  · next a1 h =>
    simp only [Option.bind_eq_some_iff, Option.some.injEq, Prod.mk.injEq] at e
    obtain ⟨⟨m1, n⟩, e1, rfl, rfl, rfl⟩ := e
    simp [h]; exact ⟨n, e1⟩

theorem splitBody_quiet {less : A → T → T → A × Option Bool} {pivot : T} {sm lg : Nat} {a a' : A} {p : Ptr} {c : Bool}
    (e : splitBody less pivot sm lg m a p = some (m', a', c)) : Quiet m m' := by
  obtain ⟨v, _, _, ⟨_, _, rfl⟩ | ⟨n, _, _, e⟩ | ⟨n, _, _, e⟩⟩ := splitBody_cases e
  · exact .refl
  · exact pushBack_quiet e
  · exact pushBack_quiet e

theorem splitBody_kept {less : A → T → T → A × Option Bool} {pivot : T} {sm lg : Nat} {a a' : A} {p : Ptr} {c : Bool}
    (h : Rep m S) (h1 : sm < m.freshL) (h2 : lg < m.freshL) (x1 : X sm) (x2 : X lg)
    (e : splitBody less pivot sm lg m a p = some (m', a', c)) : ∃ S', Kept X m S m' S' := by
  obtain ⟨v, _, _, ⟨_, _, rfl⟩ | ⟨n, _, _, e⟩ | ⟨n, _, _, e⟩⟩ := splitBody_cases e
  · exact ⟨S, .refl h⟩
  · obtain ⟨S', k⟩ := pushBack_kept h h1 e
    exact ⟨S', k.mono (by rintro _ rfl; exact x1)⟩
  · obtain ⟨S', k⟩ := pushBack_kept h h2 e
    exact ⟨S', k.mono (by rintro _ rfl; exact x2)⟩

/-- One call of `Sort`, taken apart. -/
theorem sortE_unfold {less : A → T → T → A × Option Bool} {fuel : Nat} {a a' : A} {l : Nat} {ok : Bool}
    (e : sortE less (fuel + 1) m a l = some (m', a', ok)) :
    m.len l ≤ 1 ∧ m' = m ∧ a' = a ∧ ok = true ∨ ¬ m.len l ≤ 1 ∧ ∃ f pivot m1 m2 m3 m4 sm lg f2 m5 a5 ok5, front m l = (m1, some f) ∧ value m1 f = some pivot ∧
      new m1 = (m2, sm) ∧ new m2 = (m3, lg) ∧ front m3 l = (m4, some f2) ∧
      rangeLoop (splitBody less pivot sm lg) fuel m4 a (elNext m4 f2) = some (m5, a5, ok5) ∧
      (ok5 = false ∧ m' = m5 ∧ a' = a5 ∧ ok = false ∨ ok5 = true ∧ ∃ m6 a6 ok6, sortE less fuel m5 a5 sm = some (m6, a6, ok6) ∧
        (ok6 = false ∧ m' = m6 ∧ a' = a6 ∧ ok = false ∨ ok6 = true ∧ ∃ m7 ok7, sortE less fuel m6 a6 lg = some (m7, a', ok7) ∧
          (ok7 = false ∧ m' = m7 ∧ ok = false ∨ ok7 = true ∧ ok = true ∧ ∃ m8 m9 n u v c d, range (fun m (_ : Unit) e => do
              let v ← value m e
              let (m, _) ← pushBack m l v
              some (m, (), true)) fuel (clear m7 l) () sm = some (m8, u, c) ∧ pushBack m8 l pivot = some (m9, n) ∧ range (fun m (_ : Unit) e => do
              let v ← value m e
              let (m, _) ← pushBack m l v
              some (m, (), true)) fuel m9 () lg = some (m', v, d)))) := by
  rw [sortE] at e
  split at e
  · next hc =>
    simp only [Option.some.injEq, Prod.mk.injEq] at e
    obtain ⟨rfl, rfl, rfl⟩ := e
    exact .inl ⟨hc, rfl, rfl, rfl⟩
  · next hc =>
    refine .inr ⟨hc, ?_⟩
    simp only [Option.bind_eq_bind, Option.bind_eq_some_iff] at e
    obtain ⟨f, hf, pivot, hp, f2, hf2, ⟨m5, a5, ok5⟩, e5, e⟩ := e
    refine ⟨f, pivot, _, _, _, _, _, _, f2, m5, a5, ok5, Prod.ext rfl hf, hp, rfl, rfl, Prod.ext rfl hf2, e5, ?_⟩
    cases ok5 with
    | false => simp only [Bool.false_eq_true, if_false, Option.some.injEq, Prod.mk.injEq] at e; obtain ⟨rfl, rfl, rfl⟩ := e; exact .inl ⟨rfl, rfl, rfl, rfl⟩
    | true =>
      simp only [if_true, Option.bind_eq_some_iff] at e
      obtain ⟨⟨m6, a6, ok6⟩, e6, e⟩ := e
      refine .inr ⟨rfl, m6, a6, ok6, e6, ?_⟩
      cases ok6 with
      | false => simp only [Bool.false_eq_true, if_false, Option.some.injEq, Prod.mk.injEq] at e; obtain ⟨rfl, rfl, rfl⟩ := e; exact .inl ⟨rfl, rfl, rfl, rfl⟩
      | true =>
        simp only [if_true, Option.bind_eq_some_iff] at e
        obtain ⟨⟨m7, a7, ok7⟩, e7, e⟩ := e
        refine .inr ⟨rfl, m7, ok7, ?_⟩
        cases ok7 with
        | false =>
          simp only [Bool.false_eq_true, if_false, Option.some.injEq, Prod.mk.injEq] at e; obtain ⟨rfl, rfl, rfl⟩ := e
          exact ⟨e7, .inl ⟨rfl, rfl, rfl⟩⟩
        | true =>
          simp only [if_true, Option.bind_eq_some_iff] at e
          obtain ⟨⟨m8, u, c⟩, e8, ⟨m9, n⟩, e9, ⟨m10, v, d⟩, e10, e⟩ := e
          simp only [Option.some.injEq, Prod.mk.injEq] at e
          obtain ⟨rfl, rfl, rfl⟩ := e
          exact ⟨e7, .inr ⟨rfl, rfl, m8, m9, n, u, v, c, d, e8, e9, e10⟩⟩

theorem sortE_quiet {less : A → T → T → A × Option Bool} : ∀ (fuel : Nat) {m m' : Mem T} {a a' : A} {l : Nat} {ok : Bool},
    sortE less fuel m a l = some (m', a', ok) → Quiet m m' := by
  intro fuel
  induction fuel with
  | zero => intro m m' a a' l ok e; simp [sortE] at e
  | succ fuel ih =>
    intro m m' a a' l ok e
    obtain ⟨_, rfl, _⟩ | ⟨_, f, pivot, m1, m2, m3, m4, sm, lg, f2, m5, a5, ok5, q1, _, q2, q3, q4, e5, e⟩ := sortE_unfold e
    · exact .refl
    have k1 : Quiet m m1 := by have := front_quiet (m := m) (l := l); rwa [q1] at this
    have k2 : Quiet m1 m2 := by have := new_quiet (m := m1); rwa [q2] at this
    have k3 : Quiet m2 m3 := by have := new_quiet (m := m2); rwa [q3] at this
    have k4 : Quiet m3 m4 := by have := front_quiet (m := m3) (l := l); rwa [q4] at this
    have k5 := (((k1.trans k2).trans k3).trans k4).trans (rangeLoop_quiet (fun _ _ _ _ _ _ e => splitBody_quiet e) fuel e5)
    obtain ⟨_, rfl, _⟩ | ⟨_, m6, a6, ok6, e6, e⟩ := e
    · exact k5
    have k6 := k5.trans (ih e6)
    obtain ⟨_, rfl, _⟩ | ⟨_, m7, ok7, e7, e⟩ := e
    · exact k6
    have k7 := k6.trans (ih e7)
    obtain ⟨_, rfl, _⟩ | ⟨_, _, m8, m9, n, u, v, c, d, e8, e9, e10⟩ := e
    · exact k7
    exact (((k7.trans clear_quiet).trans (copy_quiet e8)).trans (pushBack_quiet e9)).trans (copy_quiet e10)

/-- `Sort` changes the list and makes new ones; if `cmpLess` panics, it has not changed the list. -/
theorem sortE_kept {less : A → T → T → A × Option Bool} : ∀ (fuel : Nat) {m m' : Mem T} {S : Nat → List Nat} {a a' : A} {l : Nat} {ok : Bool},
    Rep m S → l < m.freshL → sortE less fuel m a l = some (m', a', ok) →
      ∃ S', Kept (fun x => ok = true ∧ x = l ∨ m.freshL ≤ x) m S m' S' := by
  intro fuel
  induction fuel with
  | zero => intro m m' S a a' l ok _ _ e; simp [sortE] at e
  | succ fuel ih =>
    intro m m' S a a' l ok h hl e
    obtain ⟨_, rfl, _⟩ | ⟨_, f, pivot, m1, m2, m3, m4, sm, lg, f2, m5, a5, ok5, q1, _, q2, q3, q4, e5, e⟩ := sortE_unfold e
    · exact ⟨S, .refl h⟩
    generalize hX : (fun x => m.freshL ≤ x) = X
    have k1 : Kept X m S m1 S := by have := front_kept h hl X; rwa [q1] at this
    have k2 : Kept X m1 S m2 S := by have := new_kept k1.rep X; rwa [q2] at this
    have k3 : Kept X m2 S m3 S := by have := new_kept k2.rep X; rwa [q3] at this
    have k123 := (k1.trans k2).trans k3
    have k4 : Kept X m3 S m4 S := by have := front_kept k3.rep (Nat.lt_of_lt_of_le hl k123.freshL) X; rwa [q4] at this
    have k14 := k123.trans k4
    obtain rfl : sm = m1.freshL := (congrArg Prod.snd q2).symm
    obtain rfl : lg = m2.freshL := (congrArg Prod.snd q3).symm
    have l2 : m2.freshL = m1.freshL + 1 := by have := congrArg (fun x => x.1.freshL) q2; exact this.symm
    have l3 : m3.freshL = m2.freshL + 1 := by have := congrArg (fun x => x.1.freshL) q3; exact this.symm
    have l1 := k1.freshL
    have l4 := k4.freshL
    have up : ∀ {m' S'}, Kept X m S m' S' → ∃ S', Kept (fun x => ok = true ∧ x = l ∨ m.freshL ≤ x) m S m' S' :=
      fun {_ S'} k => ⟨S', k.mono (by rintro x hx; rw [← hX] at hx; exact .inr hx)⟩
    obtain ⟨S5, k5⟩ := rangeLoop_kept (X := X) (B := m4.freshL) (fun m S a p m' a' c h hB e =>
      splitBody_kept h (by omega) (by omega) (by rw [← hX]; exact l1) (by rw [← hX]; show _ ≤ m2.freshL; omega) e) fuel k4.rep (Nat.le_refl _) e5
    have k15 := k14.trans k5
    have l5 := k5.freshL
    obtain ⟨_, rfl, _⟩ | ⟨_, m6, a6, ok6, e6, e⟩ := e
    · exact up k15
    obtain ⟨S6, k6⟩ := ih k5.rep (by omega) e6
    have l6 := k6.freshL
    have k16 := k15.trans (k6.mono (Y := X) (by rintro x (⟨_, rfl⟩ | hx) <;> rw [← hX] <;> show m.freshL ≤ _ <;> omega))
    obtain ⟨_, rfl, _⟩ | ⟨_, m7, ok7, e7, e⟩ := e
    · exact up k16
    obtain ⟨S7, k7⟩ := ih k6.rep (by omega) e7
    have l7 := k7.freshL
    have k17 := k16.trans (k7.mono (Y := X) (by rintro x (⟨_, rfl⟩ | hx) <;> rw [← hX] <;> show m.freshL ≤ _ <;> omega))
    obtain ⟨_, rfl, _⟩ | ⟨_, rfl, m8, m9, n, u, v, c, d, e8, e9, e10⟩ := e
    · exact up k17
    have hB : l < (clear m7 l).freshL := Nat.lt_of_lt_of_le hl k17.freshL
    have k8 := clear_kept k7.rep (l := l) hB
    have l8 := k8.freshL
    obtain ⟨S9, k9⟩ := range_kept (X := (· = l)) (B := (clear m7 l).freshL) (l := m1.freshL) (fun m S a p m' a' c h hB' e => copy_kept hB h hB' e)
      k8.rep (Nat.le_refl _) (by omega) e8
    obtain ⟨S10, k10⟩ := pushBack_kept k9.rep (Nat.lt_of_lt_of_le hB k9.freshL) e9
    have l9 := (k9.trans k10).freshL
    obtain ⟨S11, k11⟩ := range_kept (X := (· = l)) (B := (clear m7 l).freshL) (l := m2.freshL) (fun m S a p m' a' c h hB' e => copy_kept hB h hB' e)
      k10.rep l9 (by omega) e10
    exact ⟨S11, ((k17.mono (by rintro x hx; rw [← hX] at hx; exact .inr hx)).trans (k8.mono (by rintro x rfl; exact .inl ⟨rfl, rfl⟩))).trans
      (((k9.trans k10).trans k11).mono (by rintro x rfl; exact .inl ⟨rfl, rfl⟩))⟩

/-! ## What `Sort` does, on plain lists -/

/-- Every value is compared with the pivot, one after the other; it goes to the first list if `less` says so, to the second otherwise. -/
def parts (less : A → T → T → A × Option Bool) (p : T) : A → List T → A × Option (List T × List T)
  | a, [] => (a, some ([], []))
  | a, x :: xs => match less a x p with
    | (a, none) => (a, none)
    | (a, some b) => match parts less p a xs with
      | (a, none) => (a, none)
      | (a, some (u, v)) => (a, some (if b then (x :: u, v) else (u, x :: v)))

/-- Sorting by the first value: from state `a`, the values `xs` come out as `r` and the state is `a'`; `none`: `less` panicked. -/
inductive Sorts (less : A → T → T → A × Option Bool) : A → List T → A → Option (List T) → Prop
  | short {a : A} {xs : List T} : xs.length ≤ 1 → Sorts less a xs a (some xs)
  | stop {a a' : A} {p : T} {R : List T} : R ≠ [] → parts less p a R = (a', none) → Sorts less a (p :: R) a' none
  | stop1 {a a1 a' : A} {p : T} {R u v : List T} : R ≠ [] → parts less p a R = (a1, some (u, v)) → Sorts less a1 u a' none → Sorts less a (p :: R) a' none
  | stop2 {a a1 a2 a' : A} {p : T} {R u v u' : List T} : R ≠ [] → parts less p a R = (a1, some (u, v)) → Sorts less a1 u a2 (some u') →
      Sorts less a2 v a' none → Sorts less a (p :: R) a' none
  | done {a a1 a2 a' : A} {p : T} {R u v u' v' : List T} : R ≠ [] → parts less p a R = (a1, some (u, v)) → Sorts less a1 u a2 (some u') →
      Sorts less a2 v a' (some v') → Sorts less a (p :: R) a' (some (u' ++ p :: v'))

theorem parts_some {less : A → T → T → A × Option Bool} {p : T} : ∀ {R : List T} {a a' : A} {u v : List T}, parts less p a R = (a', some (u, v)) →
    u.Sublist R ∧ v.Sublist R ∧ (u ++ v).Perm R := by
  intro R
  induction R with
  | nil => intro a a' u v h; simp [parts] at h; obtain ⟨_, rfl, rfl⟩ := h; simp
  | cons x R ih =>
    intro a a' u v h
    simp only [parts] at h
    split at h
    · simp at h
    · split at h
      · simp at h
      · next a1 b _ _ a2 u1 v1 h1 =>
        obtain ⟨i1, i2, i3⟩ := ih h1
        simp only [Prod.mk.injEq, Option.some.injEq] at h
        obtain ⟨_, h⟩ := h
        cases b
        · simp only [Bool.false_eq_true, if_false, Prod.mk.injEq] at h
          obtain ⟨rfl, rfl⟩ := h
          exact ⟨i1.cons _, i2.cons_cons _, List.perm_middle.trans (i3.cons _)⟩
        · simp only [if_true, Prod.mk.injEq] at h
          obtain ⟨rfl, rfl⟩ := h
          exact ⟨i1.cons_cons _, i2.cons _, i3.cons _⟩

theorem Sorts.perm {less : A → T → T → A × Option Bool} {a a' : A} {xs : List T} {r : Option (List T)} (h : Sorts less a xs a' r) :
    ∀ ys, r = some ys → ys.Perm xs := by
  induction h with
  | short _ => rintro ys h; cases h; exact .refl _
  | stop => rintro ys h; cases h
  | stop1 => rintro ys h; cases h
  | stop2 => rintro ys h; cases h
  | done hR hp _ _ ih1 ih2 =>
    rintro ys h
    cases h
    exact List.perm_middle.trans ((((ih1 _ rfl).append (ih2 _ rfl)).trans (parts_some hp).2.2).cons _)

/-! ## The memory -/

/-- All lists and elements that there are, as an abstract state. -/
theorem Rep.sim (h : Rep m S) : Sim m ⟨fun l => l < m.freshL, S, fun n => if n < m.fresh then m.val n else none, fun _ => True⟩ S where
  rep := h
  seq := fun _ _ => rfl
  listAlloc := fun _ hl => hl
  val := fun n v hv => by
    dsimp only at hv
    split at hv
    · exact hv
    · cases hv
  alloc := fun n hn => by
    dsimp only at hn
    split at hn
    · assumption
    · exact (hn rfl).elim
  elems := fun l n hn => by
    have := h.alloc l n hn
    obtain ⟨v, hv⟩ := h.vals n this
    simp [this, hv]
  owner := fun _ _ _ _ => .inr trivial
  noList := fun l hl => h.unallocList (Nat.le_of_not_lt hl)

theorem valsOf_quiet (h : Rep m S) (q : Quiet m m') {l : Nat} {xs : List Nat} (hx : ∀ n ∈ xs, n ∈ S l) : valsOf m'.val xs = valsOf m.val xs :=
  valsOf_congr fun n hn => (q.2 n (h.alloc l n (hx n hn))).1

theorem valsOf_len (h : Rep m S) {l : Nat} : ∀ {xs : List Nat}, (∀ n ∈ xs, n ∈ S l) → (valsOf m.val xs).length = xs.length := by
  intro xs
  induction xs with
  | nil => intro _; rfl
  | cons x xs ih =>
    intro hx
    obtain ⟨v, hv⟩ := h.vals x (h.alloc l x (hx x (by simp)))
    have := ih fun n hn => hx n (by simp [hn])
    simp only [valsOf] at this
    simp [valsOf, hv, this]

/-- `PushBack` puts a new element with the value at the end. -/
theorem pushBack_total (h : Rep m S) {l : Nat} (hl : l < m.freshL) (v : T) :
    ∃ m', pushBack m l v = some (m', m.fresh) ∧ Rep m' (upd S l (S l ++ [m.fresh])) ∧ Quiet m m' ∧ m'.freshL = m.freshL ∧
      (∀ x, x ≠ l → valsOf m'.val (S x) = valsOf m.val (S x)) ∧ valsOf m'.val (S l ++ [m.fresh]) = valsOf m.val (S l) ++ [v] := by
  obtain ⟨h1, h2, h3, h4, h5, h6, _⟩ := lazyInit_rep h l hl
  obtain ⟨_, h7⟩ := h1.links h2 (xs := S l) (ys := []) (by simp)
  rw [headP_nil] at h7
  obtain ⟨m', e, hr, hv, hf, hfl, ho, hin⟩ := insertValue_rep h1 h2 (xs := S l) (ys := []) (by simp) v
  rw [h3] at e hr hv
  have e' : pushBack m l v = some (m', m.fresh) := by unfold pushBack; rw [← e, ← h7]
  have q := pushBack_quiet e'
  refine ⟨m', e', hr, q, by rw [hfl, h4], fun x _ => valsOf_quiet h q fun _ h => h, ?_⟩
  rw [valsOf_append, valsOf_quiet h q fun _ h => h]
  simp [valsOf, hv, upd]

theorem front_total (h : Rep m S) {l : Nat} (hl : l < m.freshL) :
    ∃ m', front m l = (m', (S l).head?.map .node) ∧ Rep m' S ∧ Quiet m m' ∧ m.freshL ≤ m'.freshL := by
  obtain ⟨m', e, h1, _⟩ := h.sim.front (l := l) hl
  have q := front_quiet (m := m) (l := l)
  have k := front_kept h hl (fun _ => True)
  rw [e] at q k
  exact ⟨m', e, h1.rep, q, k.freshL⟩

theorem split_loop {less : A → T → T → A × Option Bool} {pivot : T} {sm lg l : Nat} (n1 : l ≠ sm) (n2 : l ≠ lg) (n3 : sm ≠ lg) :
    ∀ (rest pre : List Nat) (m : Mem T) (S : Nat → List Nat) (a : A), Rep m S → S l = pre ++ rest → sm < m.freshL → lg < m.freshL →
    ∃ m' S', (∀ fuel, rest.length < fuel → rangeLoop (splitBody less pivot sm lg) fuel m a (rest.head?.map .node) =
        some (m', (parts less pivot a (valsOf m.val rest)).1, (parts less pivot a (valsOf m.val rest)).2.isSome)) ∧
      Rep m' S' ∧ Quiet m m' ∧ m'.freshL = m.freshL ∧ (∀ x, x ≠ sm → x ≠ lg → S' x = S x) ∧
      ∀ u v, (parts less pivot a (valsOf m.val rest)).2 = some (u, v) →
        valsOf m'.val (S' sm) = valsOf m.val (S sm) ++ u ∧ valsOf m'.val (S' lg) = valsOf m.val (S lg) ++ v := by
  intro rest
  induction rest with
  | nil =>
    intro pre m S a h _ _ _
    refine ⟨m, S, fun fuel hf => ?_, h, .refl, rfl, fun _ _ _ => rfl, fun u v e => ?_⟩
    · cases fuel with
      | zero => simp at hf
      | succ f => simp [rangeLoop, parts, valsOf]
    · simp [parts, valsOf] at e
      obtain ⟨rfl, rfl⟩ := e
      simp
  | cons x rest ih =>
    intro pre m S a h hS h1 h2
    have hx : x ∈ S l := by rw [hS]; simp
    obtain ⟨v, hv⟩ := h.vals x (h.alloc l x hx)
    have hvals : valsOf m.val (x :: rest) = v :: valsOf m.val rest := by simp [valsOf, hv]
    have hrest : ∀ n ∈ rest, n ∈ S l := fun n hn => by rw [hS]; simp [hn]
    rw [hvals]
    -- one step that goes on
    have go : ∀ (b : Bool) (y z : Nat) (a1 : A), less a v pivot = (a1, some b) → y = (if b then sm else lg) → z = (if b then lg else sm) →
        ∃ m1, splitBody less pivot sm lg m a (.node x) = some (m1, a1, true) ∧ Rep m1 (upd S y (S y ++ [m.fresh])) ∧ Quiet m m1 ∧ m1.freshL = m.freshL ∧
          valsOf m1.val (S z) = valsOf m.val (S z) ∧ valsOf m1.val (S y ++ [m.fresh]) = valsOf m.val (S y) ++ [v] := by
      intro b y z a1 hl hy hz
      obtain ⟨m1, e1, r1, q1, f1, o1, v1⟩ := pushBack_total h (l := y) (by rw [hy]; split <;> assumption) v
      refine ⟨m1, ?_, r1, q1, f1, o1 z ?_, v1⟩
      · cases b <;> simp [splitBody, Dllist.value, hv, hl] <;> simp at hy <;> rw [hy] at e1 <;> simp [e1]
      · rw [hy, hz]; cases b <;> simp [n3, n3.symm]
    cases hl : less a v pivot with
    | mk a1 o =>
      cases o with
      | none =>
        refine ⟨m, S, fun fuel hf => ?_, h, .refl, rfl, fun _ _ _ => rfl, fun u v e => by simp [parts, hl] at e⟩
        cases fuel with
        | zero => simp at hf
        | succ f => simp [rangeLoop, parts, splitBody, Dllist.value, hv, hl]
      | some b =>
        obtain ⟨m1, e1, r1, q1, f1, o1, v1⟩ := go b _ _ a1 hl rfl rfl
        generalize hy : (if b then sm else lg) = y at r1 v1
        generalize hz : (if b then lg else sm) = z at o1
        have hyl : l ≠ y := by rw [← hy]; split <;> assumption
        have hS1 : upd S y (S y ++ [m.fresh]) l = (pre ++ [x]) ++ rest := by simp [upd, hyl, hS]
        obtain ⟨m', S', i1, i2, i3, i4, i5, i6⟩ := ih (pre ++ [x]) m1 _ a1 r1 hS1 (by rw [f1]; exact h1) (by rw [f1]; exact h2)
        rw [valsOf_quiet h q1 hrest] at i1 i6
        have hn : elNext m1 (.node x) = rest.head?.map .node := r1.sim.elNext (l := l) (xs := pre) (ys := rest) (by show upd S y _ l = _; rw [hS1]; simp)
        refine ⟨m', S', fun fuel hf => ?_, i2, q1.trans i3, by rw [i4, f1], fun w hw1 hw2 => ?_, fun u' v' e => ?_⟩
        · cases fuel with
          | zero => simp at hf
          | succ f =>
            simp only [List.head?_cons, Option.map_some, rangeLoop, e1, Option.bind_eq_bind, Option.bind_some, if_true]
            rw [hn, i1 f (by simpa using hf)]
            simp only [parts, hl]
            cases parts less pivot a1 (valsOf m.val rest) with
            | mk a2 o2 => cases o2 <;> rfl
        · rw [i5 w hw1 hw2]
          have : w ≠ y := by rw [← hy]; split <;> assumption
          simp [upd, this]
        · simp only [parts, hl] at e
          cases hp : parts less pivot a1 (valsOf m.val rest) with
          | mk a2 o2 =>
            rw [hp] at e
            cases o2 with
            | none => simp at e
            | some uv =>
              obtain ⟨u, v0⟩ := uv
              obtain ⟨j1, j2⟩ := i6 u v0 (by rw [hp])
              simp only [Option.some.injEq] at e
              cases b
              · simp at hy hz e
                subst hy hz
                obtain ⟨rfl, rfl⟩ := e
                simp only [upd, n3, if_false, if_true] at j1 j2
                exact ⟨by rw [j1, o1], by rw [j2, v1]; simp⟩
              · simp at hy hz e
                subst hy hz
                obtain ⟨rfl, rfl⟩ := e
                simp only [upd, n3.symm, if_false, if_true] at j1 j2
                exact ⟨by rw [j1, v1]; simp, by rw [j2, o1]⟩

/-- The function of the second and third loop. -/
def copyBody (l : Nat) (m : Mem T) (_ : Unit) (e : Ptr) : Option (Mem T × Unit × Bool) := do
  let v ← value m e
  let (m, _) ← pushBack m l v
  some (m, (), true)

theorem copy_loop {l o : Nat} (n1 : o ≠ l) : ∀ (rest pre : List Nat) (m : Mem T) (S : Nat → List Nat), Rep m S → S o = pre ++ rest → l < m.freshL →
    ∃ m' S', (∀ fuel, rest.length < fuel → rangeLoop (copyBody l) fuel m () (rest.head?.map .node) = some (m', (), true)) ∧
      Rep m' S' ∧ Quiet m m' ∧ m'.freshL = m.freshL ∧ (∀ x, x ≠ l → S' x = S x) ∧ valsOf m'.val (S' l) = valsOf m.val (S l) ++ valsOf m.val rest := by
  intro rest
  induction rest with
  | nil =>
    intro pre m S h _ _
    refine ⟨m, S, fun fuel hf => ?_, h, .refl, rfl, fun _ _ => rfl, by simp [valsOf]⟩
    cases fuel with
    | zero => simp at hf
    | succ f => rfl
  | cons x rest ih =>
    intro pre m S h hS h1
    have hx : x ∈ S o := by rw [hS]; simp
    obtain ⟨v, hv⟩ := h.vals x (h.alloc o x hx)
    have hvals : valsOf m.val (x :: rest) = v :: valsOf m.val rest := by simp [valsOf, hv]
    have hrest : ∀ n ∈ rest, n ∈ S o := fun n hn => by rw [hS]; simp [hn]
    obtain ⟨m1, e1, r1, q1, f1, _, v1⟩ := pushBack_total h h1 v
    have hS1 : upd S l (S l ++ [m.fresh]) o = (pre ++ [x]) ++ rest := by simp [upd, n1, hS]
    obtain ⟨m', S', i1, i2, i3, i4, i5, i6⟩ := ih (pre ++ [x]) m1 _ r1 hS1 (by rw [f1]; exact h1)
    have hn : elNext m1 (.node x) = rest.head?.map .node := r1.sim.elNext (l := o) (xs := pre) (ys := rest) (by show upd S l _ o = _; rw [hS1]; simp)
    refine ⟨m', S', fun fuel hf => ?_, i2, q1.trans i3, by rw [i4, f1], fun w hw => by rw [i5 w hw]; simp [upd, hw], ?_⟩
    · cases fuel with
      | zero => simp at hf
      | succ f =>
        have : copyBody l m () (.node x) = some (m1, (), true) := by simp [copyBody, Dllist.value, hv, e1]
        simp only [List.head?_cons, Option.map_some, rangeLoop, this, Option.bind_eq_bind, Option.bind_some, if_true]
        rw [hn, i1 f (by simpa using hf)]
    · rw [i6, valsOf_quiet h q1 hrest, hvals]
      simp only [upd, if_true]
      rw [v1]
      simp

theorem copy_range {l o : Nat} (n1 : o ≠ l) (h : Rep m S) (hl : l < m.freshL) (ho : o < m.freshL) :
    ∃ m' S', (∀ fuel, (S o).length < fuel → range (copyBody l) fuel m () o = some (m', (), true)) ∧
      Rep m' S' ∧ Quiet m m' ∧ m.freshL ≤ m'.freshL ∧ (∀ x, x ≠ l → S' x = S x) ∧ valsOf m'.val (S' l) = valsOf m.val (S l) ++ valsOf m.val (S o) := by
  obtain ⟨m1, e1, r1, q1, f1⟩ := front_total h ho
  obtain ⟨m', S', i1, i2, i3, i4, i5, i6⟩ := copy_loop n1 (S o) [] m1 S r1 rfl (Nat.lt_of_lt_of_le hl f1)
  refine ⟨m', S', fun fuel hf => ?_, i2, q1.trans i3, by rw [i4]; exact f1, i5, ?_⟩
  · unfold range
    rw [e1]
    exact i1 fuel hf
  · rw [i6, valsOf_quiet h q1 fun _ h => h, valsOf_quiet h q1 fun _ h => h]

/-- `Sort`, for every comparison function. -/
theorem sortE_total {less : A → T → T → A × Option Bool} : ∀ (k : Nat) {m : Mem T} {S : Nat → List Nat} {a : A} {l : Nat}, Rep m S → l < m.freshL →
    (S l).length ≤ k → ∃ m' S' a' r, (∀ fuel, (S l).length < fuel → sortE less fuel m a l = some (m', a', r.isSome)) ∧ Rep m' S' ∧ Quiet m m' ∧
      m.freshL ≤ m'.freshL ∧ (∀ x < m.freshL, x ≠ l → S' x = S x) ∧ Sorts less a (valsOf m.val (S l)) a' r ∧
      (r = none → S' l = S l) ∧ ∀ ys, r = some ys → valsOf m'.val (S' l) = ys := by
  intro k
  induction k with
  | zero =>
    intro m S a l h hl hk
    refine ⟨m, S, a, some (valsOf m.val (S l)), fun fuel hf => ?_, h, .refl, Nat.le_refl _, fun _ _ _ => rfl,
      .short (by rw [valsOf_len h fun _ h => h]; omega), fun h => (by cases h), fun ys h => (by cases h; rfl)⟩
    cases fuel with
    | zero => omega
    | succ f => rw [sortE, if_pos (by rw [h.len]; omega)]; rfl
  | succ k ih =>
    intro m S a l h hl hk
    by_cases hshort : (S l).length ≤ 1
    · refine ⟨m, S, a, some (valsOf m.val (S l)), fun fuel hf => ?_, h, .refl, Nat.le_refl _, fun _ _ _ => rfl,
        .short (by rw [valsOf_len h fun _ h => h]; omega), fun h => (by cases h), fun ys h => (by cases h; rfl)⟩
      cases fuel with
      | zero => omega
      | succ f => rw [sortE, if_pos (by rw [h.len]; omega)]; rfl
    · obtain ⟨x, R, hL⟩ := List.exists_cons_of_ne_nil (l := S l) (by intro e; rw [e] at hshort; simp at hshort)
      obtain ⟨p, hp⟩ := h.vals x (h.alloc l x (by rw [hL]; simp))
      have hRl : R.length + 1 = (S l).length := by rw [hL]; rfl
      have hRS : ∀ n ∈ R, n ∈ S l := fun n hn => by rw [hL]; simp [hn]
      have hv : valsOf m.val (S l) = p :: valsOf m.val R := by rw [hL]; simp [valsOf, hp]
      have hRv : (valsOf m.val R).length = R.length := valsOf_len h hRS
      have hRne : valsOf m.val R ≠ [] := by intro e; rw [e] at hRv; simp at hRv; omega
      obtain ⟨m1, e1, r1, q1, f1⟩ := front_total h hl
      obtain ⟨r2, s2, _, _, g2⟩ := new_rep r1
      have q2 := new_quiet (m := m1)
      obtain ⟨r3, s3, _, _, g3⟩ := new_rep r2
      have q3 := new_quiet (m := (new m1).1)
      obtain ⟨m4, e4, r4, q4, f4⟩ := front_total r3 (l := l) (by omega)
      have q14 := ((q1.trans q2).trans q3).trans q4
      generalize hsm : m1.freshL = sm at *
      generalize hlg : (new m1).1.freshL = lg at *
      have l1 : l ≠ sm := by omega
      have l2 : l ≠ lg := by omega
      have l3 : sm ≠ lg := by omega
      have zs : S sm = [] := r1.unallocList (by omega)
      have zl : S lg = [] := r1.unallocList (by omega)
      obtain ⟨m5, S5, i1, r5, q5, f5, o5, v5⟩ := split_loop (less := less) (pivot := p) l1 l2 l3 R [x] m4 S a r4 hL (by omega) (by omega)
      rw [valsOf_quiet h q14 hRS] at i1 v5
      have hnext : elNext m4 (.node x) = R.head?.map .node := r4.sim.elNext (l := l) (xs := []) (ys := R) hL
      have q15 := q14.trans q5
      have hpm : m1.val x = some p := by rw [(q1.2 x (h.alloc l x (by rw [hL]; simp))).1, hp]
      -- the call up to the end of the first loop
      have start : ∀ f, R.length < f → ∀ res, ((if (parts less p a (valsOf m.val R)).2.isSome then do
          let (m, a, ok) ← sortE less f m5 (parts less p a (valsOf m.val R)).1 sm
          if ok then do
            let (m, a, ok) ← sortE less f m a lg
            if ok then do
              let m := clear m l
              let (m, _, _) ← range (copyBody l) f m () sm
              let (m, _) ← pushBack m l p
              let (m, _, _) ← range (copyBody l) f m () lg
              some (m, a, true)
            else some (m, a, false)
          else some (m, a, false)
        else some (m5, (parts less p a (valsOf m.val R)).1, false)) : Option (Mem T × A × Bool)) = res → sortE less (f + 1) m a l = res := by
        intro f hf res hres
        rw [sortE, if_neg (by rw [h.len]; omega), e1, hL]
        simp only [List.head?_cons, Option.map_some, Option.bind_eq_bind, Option.bind_some, Dllist.value, hpm, s2]
        have s3' : (new (new m1).1).2 = lg := s3
        rw [s3', e4, hL]
        simp only [List.head?_cons, Option.map_some, Option.bind_some]
        rw [hnext]
        have := i1 f hf
        exact (congrArg (fun z => Option.bind z _) this).trans hres
      cases hparts : parts less p a (valsOf m.val R) with
      | mk a5 o =>
      rw [hparts] at start v5
      cases o with
      | none =>
        refine ⟨m5, S5, a5, none, fun fuel hf => ?_, r5, q15, by omega, fun y hy1 hy2 => o5 y (by omega) (by omega), ?_, fun _ => o5 l l1 l2, fun _ e => by cases e⟩
        · cases fuel with
          | zero => omega
          | succ f => exact start f (by omega) _ rfl
        · rw [hv]; exact .stop hRne hparts
      | some uv =>
      obtain ⟨u, v⟩ := uv
      obtain ⟨v5s, v5l⟩ := v5 u v rfl
      rw [zs] at v5s
      rw [zl] at v5l
      have v5s' : valsOf m5.val (S5 sm) = u := by rw [v5s]; simp [valsOf]
      have v5l' : valsOf m5.val (S5 lg) = v := by rw [v5l]; simp [valsOf]
      obtain ⟨su, sv, puv⟩ := parts_some hparts
      have lu : (S5 sm).length = u.length := by rw [← v5s', valsOf_len r5 fun _ h => h]
      have lv : (S5 lg).length = v.length := by rw [← v5l', valsOf_len r5 fun _ h => h]
      have lu' : u.length ≤ R.length := by rw [← hRv]; exact su.length_le
      have lv' : v.length ≤ R.length := by rw [← hRv]; exact sv.length_le
      obtain ⟨m6, S6, a6, o6, j1, r6, q6, f6, x6, j2, j3, j4⟩ := ih (a := a5) r5 (l := sm) (by omega) (by omega)
      rw [v5s'] at j2
      have q16 := q15.trans q6
      cases o6 with
      | none =>
        refine ⟨m6, S6, a6, none, fun fuel hf => ?_, r6, q16, by omega, fun y hy1 hy2 => ?_, ?_, fun _ => ?_, fun _ e => by cases e⟩
        · cases fuel with
          | zero => omega
          | succ f =>
            refine start f (by omega) _ ?_
            simp only [Option.isSome_some, if_true]
            rw [j1 f (by omega)]
            rfl
        · rw [x6 y (by omega) (by omega)]; exact o5 y (by omega) (by omega)
        · rw [hv]; exact .stop1 hRne hparts j2
        · rw [x6 l (by omega) l1]; exact o5 l l1 l2
      | some u' =>
      have v6s := j4 u' rfl
      have e6l : S6 lg = S5 lg := x6 lg (by omega) l3.symm
      have v6l : valsOf m6.val (S6 lg) = v := by rw [e6l, valsOf_quiet r5 q6 fun _ h => h, v5l']
      obtain ⟨m7, S7, a7, o7, w1, r7, q7, f7, x7, w2, w3, w4⟩ := ih (a := a6) r6 (l := lg) (by omega) (by rw [e6l]; omega)
      rw [v6l] at w2
      have q17 := q16.trans q7
      have l7 : S7 l = S l := by rw [x7 l (by omega) l2, x6 l (by omega) l1]; exact o5 l l1 l2
      cases o7 with
      | none =>
        refine ⟨m7, S7, a7, none, fun fuel hf => ?_, r7, q17, by omega, fun y hy1 hy2 => ?_, ?_, fun _ => l7, fun _ e => by cases e⟩
        · cases fuel with
          | zero => omega
          | succ f =>
            refine start f (by omega) _ ?_
            simp only [Option.isSome_some, if_true]
            rw [j1 f (by omega)]
            simp only [Option.bind_eq_bind, Option.bind_some, Option.isSome_some, if_true]
            rw [w1 f (by rw [e6l]; omega)]
            rfl
        · rw [x7 y (by omega) (by omega), x6 y (by omega) (by omega)]; exact o5 y (by omega) (by omega)
        · rw [hv]; exact .stop2 hRne hparts j2 w2
      | some v' =>
      have v7l := w4 v' rfl
      have e7s : S7 sm = S6 sm := x7 sm (by omega) l3
      have v7s : valsOf m7.val (S7 sm) = u' := by rw [e7s, valsOf_quiet r6 q7 fun _ h => h, v6s]
      have hlu : (S7 sm).length ≤ R.length := by
        rw [e7s, ← valsOf_len r6 (xs := S6 sm) (fun _ h => h), v6s, (j2.perm u' rfl).length_eq]; exact lu'
      have hlv : (S7 lg).length ≤ R.length := by
        rw [← valsOf_len r7 (xs := S7 lg) (fun _ h => h), v7l, (w2.perm v' rfl).length_eq]; exact lv'
      have r8 := clear_rep r7 l (by omega)
      have q8 := clear_quiet (m := m7) (l := l)
      have f8 : (clear m7 l).freshL = m7.freshL := rfl
      obtain ⟨m9, S9, y1, r9, q9, f9, x9, v9⟩ := copy_range (l := l) (o := sm) l1.symm r8 (by omega) (by omega)
      obtain ⟨m10, e10, r10, q10, f10, o10, v10⟩ := pushBack_total r9 (l := l) (by omega) p
      obtain ⟨m11, S11, z1, r11, q11, f11, x11, v11⟩ := copy_range (l := l) (o := lg) l2.symm r10 (by omega) (by omega)
      have e9l : S9 lg = S7 lg := by rw [x9 lg l2.symm]; simp [upd, l2.symm]
      have e10l : upd S9 l (S9 l ++ [m9.fresh]) lg = S7 lg := by simp [upd, l2.symm, e9l]
      refine ⟨m11, S11, a7, some (u' ++ p :: v'), fun fuel hf => ?_, r11, (((q17.trans q8).trans q9).trans q10).trans q11, by omega, fun y hy1 hy2 => ?_, ?_,
        fun e => (by cases e), fun ys e => ?_⟩
      · cases fuel with
        | zero => omega
        | succ f =>
          refine start f (by omega) _ ?_
          simp only [Option.isSome_some, if_true]
          rw [j1 f (by omega)]
          simp only [Option.bind_eq_bind, Option.bind_some, Option.isSome_some, if_true]
          rw [w1 f (by rw [e6l]; omega)]
          simp only [Option.bind_some, Option.isSome_some, if_true]
          rw [y1 f (by simp only [upd, l1.symm, if_false]; omega)]
          simp only [Option.bind_some]
          rw [e10]
          simp only [Option.bind_some]
          rw [z1 f (by rw [e10l]; omega)]
          rfl
      · rw [x11 y hy2]
        simp only [upd, hy2, if_false]
        rw [x9 y hy2]
        simp only [upd, hy2, if_false]
        rw [x7 y (by omega) (by omega), x6 y (by omega) (by omega)]; exact o5 y (by omega) (by omega)
      · rw [hv]; exact .done hRne hparts j2 w2
      · cases e
        rw [v11, e10l]
        simp only [upd, if_true]
        rw [v10, v9]
        simp only [upd, if_true, l1.symm, if_false]
        rw [valsOf_quiet r7 ((q8.trans q9).trans q10) (fun _ h => h), v7l, valsOf_quiet r7 q8 (fun _ h => h), v7s]
        simp [valsOf]

/-! ## With a function that neither panics nor changes anything -/

theorem rangeLoop_pure {b1 : Mem T → A → Ptr → Option (Mem T × A × Bool)} {b2 : Mem T → Unit → Ptr → Option (Mem T × Unit × Bool)} {a : A}
    (hb : ∀ m e, b1 m a e = (b2 m () e).map fun r => (r.1, a, true)) (hb2 : ∀ m e m' u c, b2 m () e = some (m', u, c) → c = true) :
    ∀ (fuel : Nat) (m : Mem T) (p : Option Ptr), rangeLoop b1 fuel m a p = (rangeLoop b2 fuel m () p).map fun r => (r.1, a, true) := by
  intro fuel
  induction fuel with
  | zero => intro m p; rfl
  | succ f ih =>
    intro m p
    cases p with
    | none => rfl
    | some p =>
      simp only [rangeLoop, hb, Option.bind_eq_bind]
      cases h : b2 m () p with
      | none => rfl
      | some r =>
        obtain ⟨m1, u, c⟩ := r
        obtain rfl := hb2 _ _ _ _ _ h
        simp [ih]

theorem sortE_pure (less : T → T → Bool) (a : A) : ∀ (fuel : Nat) (m : Mem T) (l : Nat),
    sortE (fun a x y => (a, some (less x y))) fuel m a l = (sort less fuel m l).map fun m => (m, a, true) := by
  intro fuel
  induction fuel with
  | zero => intro m l; rfl
  | succ f ih =>
    intro m l
    rw [sortE, sort]
    split
    · rfl
    · simp only [Option.bind_eq_bind]
      cases (front m l).2 with
      | none => rfl
      | some p =>
      simp only [Option.bind_some]
      cases value (front m l).1 p with
      | none => rfl
      | some pivot =>
      simp only [Option.bind_some]
      generalize (new (front m l).1).2 = sm
      generalize (new (new (front m l).1).1).2 = lg
      generalize front (new (new (front m l).1).1).1 l = q
      cases q.2 with
      | none => rfl
      | some p2 =>
      simp only [Option.bind_some]
      rw [rangeLoop_pure (b2 := fun m (_ : Unit) e => (value m e).bind fun v =>
          if less v pivot then (pushBack m sm v).bind fun x => some (x.1, (), true)
          else (pushBack m lg v).bind fun x => some (x.1, (), true))]
      · cases rangeLoop (fun m (_ : Unit) e => (value m e).bind fun v =>
          if less v pivot then (pushBack m sm v).bind fun x => some (x.1, (), true)
          else (pushBack m lg v).bind fun x => some (x.1, (), true)) f q.1 () (elNext q.1 p2) with
        | none => rfl
        | some r =>
        simp only [Option.map_some, Option.bind_some, if_true, ih]
        cases sort less f r.1 sm with
        | none => rfl
        | some m6 =>
        simp only [Option.map_some, Option.bind_some, if_true, ih]
        cases sort less f m6 lg with
        | none => rfl
        | some m7 =>
        simp only [Option.map_some, Option.bind_some, if_true, Option.map_bind, Function.comp_def]
      · intro m e
        cases value m e with
        | none => rfl
        | some v =>
          simp only [Option.bind_some]
          cases less v pivot
          · simp only [Bool.false_eq_true, if_false, Option.map_bind]; rfl
          · simp only [if_true, Option.map_bind]; rfl
      · intro m e m' u c h
        simp only [Option.bind_eq_some_iff] at h
        obtain ⟨v, _, h⟩ := h
        split at h <;> simp only [Option.bind_eq_some_iff, Option.some.injEq, Prod.mk.injEq] at h <;> obtain ⟨_, _, _, _, rfl⟩ := h <;> rfl

/-! ## C139 -/

/-- `l.Sort(cmpLess)`, from memory `m` and state `a` of the function: the memory and the state afterwards, and whether it returned. -/
def SortCall (less : A → T → T → A × Option Bool) (m : Mem T) (a : A) (l : Nat) (m' : Mem T) (a' : A) (ok : Bool) : Prop :=
  ∃ F, ∀ fuel, F ≤ fuel → sortE less fuel m a l = some (m', a', ok)

theorem SortCall.det {less : A → T → T → A × Option Bool} {a a' a'' : A} {l : Nat} {ok ok' : Bool} (h1 : SortCall less m a l m' a' ok)
    (h2 : SortCall less m a l m'' a'' ok') : m' = m'' ∧ a' = a'' ∧ ok = ok' := by
  obtain ⟨F1, h1⟩ := h1
  obtain ⟨F2, h2⟩ := h2
  have := h1 (max F1 F2) (Nat.le_max_left _ _)
  rw [h2 _ (Nat.le_max_right _ _)] at this
  simp only [Option.some.injEq, Prod.mk.injEq] at this
  exact ⟨this.1.symm, this.2.1.symm, this.2.2.symm⟩

/-- An abstract state stays implemented if no list and no element changed. -/
theorem Sim.unchanged (h : Sim m s S) (hr : Rep m' S') (q : Quiet m m') (hf : m.freshL ≤ m'.freshL) (hS : ∀ l < m.freshL, S' l = S l) : Sim m' s S' where
  rep := hr
  seq := fun l hl => by rw [hS l (h.listAlloc l hl)]; exact h.seq l hl
  listAlloc := fun l hl => Nat.lt_of_lt_of_le (h.listAlloc l hl) hf
  val := fun n v hv => by rw [(q.2 n (h.alloc n (by rw [hv]; simp))).1]; exact h.val n v hv
  alloc := fun n hn => Nat.lt_of_lt_of_le (h.alloc n hn) q.1
  elems := h.elems
  owner := fun n l hn ho => h.owner n l hn (by rw [← (q.2 n (h.alloc n hn)).2]; exact ho)
  noList := h.noList

theorem Sim.shows_rep (h : Sim m s S) {l : Nat} (hl : s.lists l) {xs : List (Nat × T)} (hx : Shows m l xs) :
    xs.map (·.2) = valsOf m.val (S l) := by
  have := h.shows_eq hl hx
  rw [this, pairs_snd, h.seq l hl]
  exact valsOf_congr fun n hn => by
    obtain ⟨v, hv⟩ := Option.ne_none_iff_exists'.1 (h.elems l n hn)
    rw [hv, h.val n v hv]

/-- C139: `Sort` comes to an end whatever the comparison function does: it may give any answers, keep a state of its own, panic.  It compares and sorts
as `Sorts` says; the list then holds the values in the order that comes out of this.  The other lists show what they showed. -/
theorem C139_sort {c : Client T} (hc : Safe c) {rs : List (Res T)} (h : MRun c rs m) {l : Nat} (hl : Res.list l ∈ rs) {xs : List (Nat × T)}
    (hx : Shows m l xs) (less : A → T → T → A × Option Bool) (a : A) :
    ∃ m' a' r, SortCall less m a l m' a' r.isSome ∧ Sorts less a (xs.map (·.2)) a' r ∧
      (∀ ys, r = some ys → ys.Perm (xs.map (·.2)) ∧ ∃ zs, Shows m' l zs ∧ zs.map (·.2) = ys) ∧
      ∀ l', Res.list l' ∈ rs → l' ≠ l → ∀ ys, Shows m l' ys → Shows m' l' ys := by
  obtain ⟨s, S, h1, h2⟩ := run_sim hc h
  have hll := srun_lists h1 hl
  obtain ⟨m', S', a', r, e, hr, q, hf, ho, hs, _, hy⟩ := sortE_total (less := less) (a := a) _ h2.rep (h2.listAlloc l hll) (Nat.le_refl _)
  have hxs := h2.shows_rep hll hx
  rw [← hxs] at hs
  refine ⟨m', a', r, ⟨(S l).length + 1, fun fuel hf => e fuel hf⟩, hs, fun ys hys => ⟨hs.perm ys hys, ?_⟩, fun l' hl' hne ys hys => ?_⟩
  · have hlf : l < m'.freshL := Nat.lt_of_lt_of_le (h2.listAlloc l hll) hf
    have := hr.sim.shows (l := l) hlf
    exact ⟨_, this, by rw [hr.sim.shows_rep (l := l) hlf this]; exact hy ys hys⟩
  · have hll' := srun_lists h1 hl'
    have hlf' := h2.listAlloc l' hll'
    have h3 := hr.sim.shows (l := l') (Nat.lt_of_lt_of_le hlf' hf)
    have h4 := h2.rep.sim.shows_eq (l := l') hlf' hys
    rw [h4]
    have : pairs (⟨fun l => l < m'.freshL, S', fun n => if n < m'.fresh then m'.val n else none, fun _ => True⟩ : St T) (S' l') =
        pairs (⟨fun l => l < m.freshL, S, fun n => if n < m.fresh then m.val n else none, fun _ => True⟩ : St T) (S l') := by
      rw [ho l' hlf' hne]
      exact pairs_congr fun n hn => by
        have hn' := h2.rep.alloc l' n hn
        simp [hn', Nat.lt_of_lt_of_le hn' q.1, (q.2 n hn').1]
    rw [← this]
    exact h3

/-- C139: if the comparison function panics, the panic leaves every list as it was, the one being sorted too: they show the same elements
with the same values, and every further call does what it would have done without the call of `Sort`. -/
theorem C139_panic {c : Client T} (hc : Safe c) {rs : List (Res T)} (h : MRun c rs m) {l : Nat} (hl : Res.list l ∈ rs)
    {less : A → T → T → A × Option Bool} {a a' : A} (hs : SortCall less m a l m' a' false) :
    (∀ l' ys, Res.list l' ∈ rs → (Shows m' l' ys ↔ Shows m l' ys)) ∧ ∀ s, Impl m s → s.lists l → Impl m' s := by
  have main : ∀ s, Impl m s → s.lists l → Impl m' s := by
    rintro s ⟨S, h2⟩ hll
    obtain ⟨F, hs⟩ := hs
    have hlf := h2.listAlloc l hll
    obtain ⟨S', k⟩ := sortE_kept F h2.rep hlf (hs F (Nat.le_refl _))
    exact ⟨S', h2.unchanged k.rep (sortE_quiet F (hs F (Nat.le_refl _))) k.freshL fun x hx => k.other x (by
      rintro (⟨h, _⟩ | h)
      · cases h
      · omega)⟩
  refine ⟨fun l' ys hl' => ?_, main⟩
  obtain ⟨s, S, h1, h2⟩ := run_sim hc h
  obtain ⟨S', h3⟩ := main s ⟨S, h2⟩ (srun_lists h1 hl)
  have hll' := srun_lists h1 hl'
  constructor
  · intro hy; rw [h3.shows_eq hll' hy]; exact h2.shows hll'
  · intro hy; rw [h2.shows_eq hll' hy]; exact h3.shows hll'

/-- C139: with a function that only compares, this is the `Sort` of C34. -/
theorem C139_pure {less : T → T → Bool} {a : A} {l : Nat} :
    MStep m (.sort l less) .unit m' ↔ SortCall (fun a x y => (a, some (less x y))) m a l m' a true := by
  simp only [MStep, SortCall, exec, sortE_pure]
  constructor
  · rintro ⟨F, h⟩
    refine ⟨F, fun fuel hf => ?_⟩
    have := h fuel hf
    simp only [Option.bind_eq_bind, Option.bind_eq_some_iff, Option.some.injEq, Prod.mk.injEq, and_true] at this
    obtain ⟨m1, h1, rfl⟩ := this
    rw [h1]; rfl
  · rintro ⟨F, h⟩
    refine ⟨F, fun fuel hf => ?_⟩
    have := h fuel hf
    simp only [Option.map_eq_some_iff, Prod.mk.injEq, and_true] at this
    obtain ⟨m1, h1, rfl⟩ := this
    rw [h1]; rfl

/-! ### How often it compares -/

/-- The function, noting its arguments. -/
def noting (less : A → T → T → A × Option Bool) (a : A × List (T × T)) (x y : T) : (A × List (T × T)) × Option Bool :=
  (((less a.1 x y).1, a.2 ++ [(x, y)]), (less a.1 x y).2)

theorem parts_noting {less : A → T → T → A × Option Bool} {p : T} : ∀ {R : List T} {s s' : A × List (T × T)} {o : Option (List T × List T)},
    parts (noting less) p s R = (s', o) → ∃ k, k ≤ R.length ∧ s'.2 = s.2 ++ (R.take k).map (·, p) ∧ (o.isSome = true → k = R.length) := by
  intro R
  induction R with
  | nil => intro s s' o h; simp [parts] at h; exact ⟨0, by simp, by simp [h.1], by simp⟩
  | cons x R ih =>
    intro s s' o h
    simp only [parts, noting] at h
    split at h
    · next a1 h1 =>
      simp only [Prod.mk.injEq] at h1 h
      obtain ⟨rfl, rfl⟩ := h
      exact ⟨1, by simp, by rw [← h1.1]; simp, by simp⟩
    · next a1 b h1 =>
      simp only [Prod.mk.injEq] at h1
      split at h
      · next a2 h2 =>
        obtain ⟨k, i1, i2, i3⟩ := ih h2
        simp only [Prod.mk.injEq] at h
        obtain ⟨rfl, rfl⟩ := h
        exact ⟨k + 1, by simpa using i1, by rw [i2, ← h1.1]; simp, by simp⟩
      · next a2 u v h2 =>
        obtain ⟨k, i1, i2, i3⟩ := ih h2
        simp only [Prod.mk.injEq] at h
        obtain ⟨rfl, rfl⟩ := h
        have := i3 rfl
        exact ⟨k + 1, by simpa using i1, by rw [i2, ← h1.1]; simp, by simpa using this⟩

/-- The pairs that `Sort` compares. -/
structure Asked (xs : List T) (all : Bool) (more : List (T × T)) : Prop where
  order : ∀ q ∈ more, [q.2, q.1].Sublist xs
  most : 2 * more.length + xs.length ≤ xs.length * xs.length
  least : all = true → xs.length ≤ more.length + 1
  once : xs.Nodup → more.Nodup

theorem Asked.pass {p : T} {R : List T} {k : Nat} (hk : k ≤ R.length) : Asked (p :: R) false ((R.take k).map (·, p)) := by
  refine ⟨?_, ?_, by simp, ?_⟩
  · intro q hq
    simp only [List.mem_map] at hq
    obtain ⟨y, hy, rfl⟩ := hq
    exact (List.singleton_sublist.2 (List.mem_of_mem_take hy)).cons_cons _
  · have : min k R.length = k := Nat.min_eq_left hk
    simp only [List.length_map, List.length_take, List.length_cons, this]
    have := Nat.le_mul_self R.length
    nlinarith
  · intro hn
    refine List.Nodup.map (fun a b h => (Prod.mk.inj h).1) ?_
    exact ((List.nodup_cons.1 hn).2).sublist (List.take_sublist _ _)

/-- After the first loop, the comparisons for the two parts. -/
theorem Asked.join {p : T} {R u v : List T} {b1 b2 : Bool} {x y : List (T × T)} (su : u.Sublist R) (sv : v.Sublist R) (puv : (u ++ v).Perm R)
    (hu : Asked u b1 x) (hv : Asked v b2 y) : Asked (p :: R) true (R.map (·, p) ++ (x ++ y)) := by
  have hlen : u.length + v.length = R.length := by rw [← List.length_append]; exact puv.length_eq
  refine ⟨?_, ?_, ?_, ?_⟩
  · intro q hq
    simp only [List.mem_append, List.mem_map] at hq
    obtain ⟨z, hz, rfl⟩ | hq | hq := hq
    · exact (List.singleton_sublist.2 hz).cons_cons _
    · exact ((hu.order q hq).trans su).cons _
    · exact ((hv.order q hq).trans sv).cons _
  · have h1 := hu.most
    have h2 := hv.most
    simp only [List.length_append, List.length_map, List.length_cons]
    rw [← hlen]
    nlinarith
  · intro _
    simp only [List.length_append, List.length_map, List.length_cons]
    omega
  · intro hn
    obtain ⟨hp, hR⟩ := List.nodup_cons.1 hn
    have huv : (u ++ v).Nodup := puv.nodup_iff.2 hR
    have hd := List.disjoint_of_nodup_append huv
    have in_ : ∀ {w : List T} {b : Bool} {z : List (T × T)}, Asked w b z → ∀ q ∈ z, q.2 ∈ w := fun ha q hq => (ha.order q hq).subset (by simp)
    refine List.nodup_append'.2 ⟨List.Nodup.map (fun a b h => (Prod.mk.inj h).1) hR, List.nodup_append'.2 ⟨hu.once (hR.sublist su), hv.once (hR.sublist sv), ?_⟩, ?_⟩
    · intro q h1 h2
      exact hd (in_ hu q h1) (in_ hv q h2)
    · intro q h1 h2
      simp only [List.mem_map] at h1
      obtain ⟨z, _, rfl⟩ := h1
      rcases List.mem_append.1 h2 with h2 | h2
      · exact hp (su.subset (in_ hu _ h2))
      · exact hp (sv.subset (in_ hv _ h2))

theorem Asked.weaken {xs : List T} {b : Bool} {x : List (T × T)} (h : Asked xs true x) : Asked xs b x := ⟨h.order, h.most, fun _ => h.least rfl, h.once⟩

theorem Asked.none {xs : List T} : Asked xs false [] := by
  refine ⟨by simp, ?_, by simp, by simp⟩
  simp only [List.length_nil, Nat.mul_zero, Nat.zero_add]
  exact Nat.le_mul_self _

theorem Sorts.asked {less : A → T → T → A × Option Bool} {s s' : A × List (T × T)} {xs : List T} {r : Option (List T)}
    (h : Sorts (noting less) s xs s' r) : ∃ more, s'.2 = s.2 ++ more ∧ Asked xs r.isSome more := by
  induction h with
  | short hx =>
    refine ⟨[], by simp, by simp, ?_, ?_, by simp⟩
    · simp only [List.length_nil, Nat.mul_zero, Nat.zero_add]; exact Nat.le_mul_self _
    · intro _; simpa using hx
  | stop hR hp =>
    obtain ⟨k, h1, h2, _⟩ := parts_noting hp
    exact ⟨_, h2, .pass h1⟩
  | @stop1 _ _ _ p _ _ _ hR hp hu ih =>
    obtain ⟨k, h1, h2, h3⟩ := parts_noting hp
    obtain ⟨su, sv, puv⟩ := parts_some hp
    obtain ⟨x, ex, ax⟩ := ih
    rw [h3 rfl, List.take_length] at h2
    have := (Asked.join (p := p) su sv puv ax Asked.none).weaken (b := false)
    rw [List.append_nil] at this
    exact ⟨_, by rw [ex, h2, List.append_assoc], this⟩
  | stop2 hR hp hu hv ih1 ih2 =>
    obtain ⟨k, h1, h2, h3⟩ := parts_noting hp
    obtain ⟨su, sv, puv⟩ := parts_some hp
    obtain ⟨x, ex, ax⟩ := ih1
    obtain ⟨y, ey, ay⟩ := ih2
    rw [h3 rfl, List.take_length] at h2
    exact ⟨_, by rw [ey, ex, h2, List.append_assoc, List.append_assoc], (Asked.join su sv puv ax ay).weaken⟩
  | done hR hp hu hv ih1 ih2 =>
    obtain ⟨k, h1, h2, h3⟩ := parts_noting hp
    obtain ⟨su, sv, puv⟩ := parts_some hp
    obtain ⟨x, ex, ax⟩ := ih1
    obtain ⟨y, ey, ay⟩ := ih2
    rw [h3 rfl, List.take_length] at h2
    exact ⟨_, by rw [ey, ex, h2, List.append_assoc, List.append_assoc], Asked.join su sv puv ax ay⟩

/-- C139: the calls of the comparison function made by one `Sort` of a list of `n` elements, whatever it answers: each compares two elements of the list, the one
that stands later in the list being the first argument; there are at most `n(n-1)/2` calls, and at least `n-1` if none panics; no
pair of (different) values is compared twice. -/
theorem C139_asked {c : Client T} (hc : Safe c) {rs : List (Res T)} (h : MRun c rs m) {l : Nat} (hl : Res.list l ∈ rs) {xs : List (Nat × T)}
    (hx : Shows m l xs) {less : A → T → T → A × Option Bool} {a a' : A} {log : List (T × T)} {ok : Bool}
    (hs : SortCall (noting less) m (a, []) l m' (a', log) ok) :
    (∀ x y, (x, y) ∈ log → [y, x].Sublist (xs.map (·.2))) ∧ log.length ≤ xs.length * (xs.length - 1) / 2 ∧
      (ok = true → xs.length - 1 ≤ log.length) ∧ ((xs.map (·.2)).Nodup → log.Nodup) := by
  obtain ⟨m1, a1, r, h1, h2, _⟩ := C139_sort hc h hl hx (noting less) (a, [])
  obtain ⟨rfl, rfl, rfl⟩ := hs.det h1
  obtain ⟨more, h3, h4⟩ := h2.asked
  simp only [List.nil_append] at h3
  subst h3
  have hm := h4.most
  have hl := h4.least
  simp only [List.length_map] at hm hl
  refine ⟨fun x y hxy => h4.order _ hxy, ?_, fun ho => by have := hl ho; omega, h4.once⟩
  rw [Nat.mul_sub_one]
  omega

theorem parts_const {less : T → T → Bool} {p : T} (b : Bool) : ∀ {R : List T} {s s' : A × List (T × T)} {u v : List T},
    (∀ x ∈ R, less x p = b) → parts (noting fun a x y => (a, some (less x y))) p s R = (s', some (u, v)) →
    (u, v) = if b then (R, []) else ([], R) := by
  intro R
  induction R with
  | nil => intro s s' u v _ h; simp [parts] at h; cases b <;> simp [h.2.1, h.2.2]
  | cons x R ih =>
    intro s s' u v hb h
    simp only [parts, noting] at h
    split at h
    · simp at h
    · next a1 h1 =>
      simp only [Prod.mk.injEq, Option.some.injEq] at h h1
      obtain ⟨h, h3⟩ := h
      have := ih (fun y hy => hb y (by simp [hy])) h1
      rw [hb x (by simp)] at h3
      cases b <;> simp at this h3 ⊢
      · exact ⟨by rw [← h3.1, this.1], by rw [← h3.2, this.2]⟩
      · exact ⟨by rw [← h3.1, this.1], by rw [← h3.2, this.2]⟩

theorem Sorts.worst {less : T → T → Bool} (b : Bool) {s s' : A × List (T × T)} {xs : List T} {r : Option (List T)}
    (h : Sorts (noting fun a x y => (a, some (less x y))) s xs s' r) (hr : r ≠ none) (hb : xs.Pairwise fun x y => less y x = b) :
    2 * s'.2.length + xs.length = 2 * s.2.length + xs.length * xs.length := by
  induction h with
  | @short _ xs hx =>
    match xs, hx with
    | [], _ => simp
    | [x], _ => simp
  | stop => exact (hr rfl).elim
  | stop1 => exact (hr rfl).elim
  | stop2 => exact (hr rfl).elim
  | @done s0 s1 s2 s3 p R u v u' v' hR hp hu hv ih1 ih2 =>
    obtain ⟨k, h1, h2, h3⟩ := parts_noting hp
    rw [h3 rfl, List.take_length] at h2
    obtain ⟨hb1, hb2⟩ := List.pairwise_cons.1 hb
    have huv := parts_const b hb1 hp
    have h2' := congrArg List.length h2
    simp only [List.length_append, List.length_map] at h2'
    cases b
    · simp only [Bool.false_eq_true, if_false, Prod.mk.injEq] at huv
      obtain ⟨rfl, rfl⟩ := huv
      have i1 := ih1 (by simp) (by simp)
      have i2 := ih2 (by simp) hb2
      simp only [List.length_nil, List.length_cons, Nat.mul_zero, Nat.add_zero] at i1 i2 ⊢
      nlinarith
    · simp only [if_true, Prod.mk.injEq] at huv
      obtain ⟨rfl, rfl⟩ := huv
      have i1 := ih1 (by simp) hb2
      have i2 := ih2 (by simp) (by simp)
      simp only [List.length_nil, List.length_cons, Nat.mul_zero, Nat.add_zero] at i1 i2 ⊢
      nlinarith

/-- C139: on a list that is sorted already, all `n(n-1)/2` comparisons are made; also on one sorted the other way round without equal values. -/
theorem C139_worst {c : Client T} (hc : Safe c) {rs : List (Res T)} (h : MRun c rs m) {l : Nat} (hl : Res.list l ∈ rs) {xs : List (Nat × T)}
    (hx : Shows m l xs) {less : T → T → Bool}
    (hb : (xs.map (·.2)).Pairwise (fun x y => less y x = false) ∨ (xs.map (·.2)).Pairwise (fun x y => less y x = true)) (a : A) :
    ∃ m' log, SortCall (noting fun a x y => (a, some (less x y))) m (a, []) l m' (a, log) true ∧ log.length = xs.length * (xs.length - 1) / 2 := by
  obtain ⟨m1, ⟨a1, log⟩, r, h1, h2, _⟩ := C139_sort hc h hl hx (noting fun a x y => (a, some (less x y))) (a, [])
  have pure_parts : ∀ {p : T} {R : List T} {s : A × List (T × T)}, (parts (noting fun a x y => (a, some (less x y))) p s R).1.1 = s.1 ∧
      (parts (noting fun a x y => (a, some (less x y))) p s R).2 ≠ none := by
    intro p R
    induction R with
    | nil => intro s; simp [parts]
    | cons x R ih =>
      intro s
      obtain ⟨i1, i2⟩ := ih (s := (s.1, s.2 ++ [(x, p)]))
      simp only [parts, noting] at i1 i2 ⊢
      split
      · next h => rw [h] at i2; exact (i2 rfl).elim
      · next h => rw [h] at i1; exact ⟨i1, by simp⟩
  have pure_sorts : ∀ {s s' : A × List (T × T)} {xs : List T} {r : Option (List T)}, Sorts (noting fun a x y => (a, some (less x y))) s xs s' r →
      s'.1 = s.1 ∧ r ≠ none := by
    intro s s' xs r h
    induction h with
    | short => simp
    | @stop s0 s1 p R _ hp => have := (pure_parts (p := p) (R := R) (s := s0)).2; rw [hp] at this; exact (this rfl).elim
    | stop1 _ _ _ ih => exact (ih.2 rfl).elim
    | stop2 _ _ _ _ _ ih => exact (ih.2 rfl).elim
    | @done s0 s1 s2 s3 p R _ _ _ _ _ hp _ _ ih1 ih2 =>
      have := (pure_parts (p := p) (R := R) (s := s0)).1
      rw [hp] at this
      exact ⟨by rw [ih2.1, ih1.1, this], by simp⟩
  obtain ⟨p1, p2⟩ := pure_sorts h2
  simp only at p1
  subst p1
  have hlen : 2 * log.length + xs.length = xs.length * xs.length := by
    rcases hb with hb | hb
    · have := h2.worst false p2 hb; simpa using this
    · have := h2.worst true p2 hb; simpa using this
  obtain ⟨ys, rfl⟩ := Option.ne_none_iff_exists'.1 p2
  refine ⟨m1, log, h1, ?_⟩
  rw [Nat.mul_sub_one]
  omega

/-! ### Examples -/

/-- Compares, counts and panics in the call number `n`. -/
def panicAt (n : Nat) (k : Nat) (x y : Nat) : Nat × Option Bool := (k + 1, if k = n then none else some (decide (x < y)))

/-- Sorting 3, 1, 2, 1 takes six calls; if the fourth panics, the list is as before. -/
example : (do
    let m ← after [.new, .pushBack 0 3, .pushBack 0 1, .pushBack 0 2, .pushBack 0 1]
    let (m, k, ok) ← sortE (panicAt 10) 20 m 0 0
    let (_, xs) ← slice 20 m 0
    some (k, ok, xs)) = some (6, true, [1, 1, 2, 3]) := rfl
example : (do
    let m ← after [.new, .pushBack 0 3, .pushBack 0 1, .pushBack 0 2, .pushBack 0 1]
    let (m, k, ok) ← sortE (panicAt 3) 20 m 0 0
    let (_, xs) ← slice 20 m 0
    some (k, ok, xs)) = some (4, false, [3, 1, 2, 1]) := rfl
/-- A sorted list of four: six comparisons. -/
example : (do
    let m ← after [.new, .pushBack 0 1, .pushBack 0 2, .pushBack 0 3, .pushBack 0 4]
    let (_, (_, log), _) ← sortE (noting (panicAt 99)) 20 m (0, []) 0
    some log) = some [(2, 1), (3, 1), (4, 1), (3, 2), (4, 2), (4, 3)] := rfl

end Verif.Dllist
