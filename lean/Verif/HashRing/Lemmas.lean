import Verif.HashRing.Model
/-!
# The invariant of the hash ring
-/
namespace Verif.HashRing
open GoSet (contain Makes)
variable {N : Type} [DecidableEq N] {e : Env N}

/-! ## The set calls used -/

/-- Set `a` has become `Q`; the other sets are as before. -/
structure Upd (m : GoSet.Mem N) (a : MRef) (Q : N → Prop) (m' : GoSet.Mem N) : Prop where
  wf : m'.WF
  mem : ∀ x, contain m' a x = true ↔ Q x
  ok : ∀ r, m.Ok r → m'.Ok r
  other : ∀ r, m.Ok r → r ≠ a → ∀ x, contain m' r x = contain m r x

theorem Upd.of_becomes {m m' : GoSet.Mem N} {s' : GoSet.Spec.St N} {a : Nat} {Q : N → Prop} (ha : m.Ok (some a))
    (hb : (GoSet.absOf m).Becomes (some a) Q s') (hs : GoSet.Sim m' s') : Upd m (some a) Q m' := by
  obtain ⟨h1, h2, h3⟩ := hb
  have hal : ∀ b, b < m.fresh ↔ b < m'.fresh := by
    intro b; rw [← hs.alive b, h1]; rfl
  have hc : ∀ b x, b < m.fresh → (contain m' (some b) x = true ↔ s'.mem b x) := by
    intro b x hb
    exact (hs.mem b ((hs.alive b).2 ((hal b).1 hb)) x).symm
  refine ⟨hs.wf, ?_, ?_, ?_⟩
  · intro x; rw [hc a x ha, h3 a rfl x]
  · intro r hr
    cases r with
    | none => trivial
    | some b => exact (hal b).1 hr
  · intro r hr hne x
    cases r with
    | none => rfl
    | some b =>
      rw [Bool.eq_iff_iff, hc b x hr, h2 b hne x]
      rfl

/-- `Push` on an existing set. -/
theorem push_set {m : GoSet.Mem N} (ω : GoSet.Ord N) (h : m.WF) {a : MRef} (ha : m.Ok a) (hne : a ≠ none) (vs : List N) :
    ∃ m', GoSet.push m a vs = some m' ∧ Upd m a (fun x => contain m a x = true ∨ x ∈ vs) m' := by
  obtain ⟨m', r, s', he, ⟨rfl, hb⟩, hs⟩ := GoSet.sim_step ω (GoSet.sim_absOf h) (.push a vs)
    ⟨GoSet.absOf_ok.2 ha, hne⟩
  cases a with
  | none => contradiction
  | some a =>
    simp only [GoSet.exec] at he
    cases hp : GoSet.push m (some a) vs with
    | none => simp [hp] at he
    | some m'' =>
      simp only [hp, Option.bind_eq_bind, Option.bind_some, Option.some.injEq, Prod.mk.injEq] at he
      obtain ⟨e1, _⟩ := he
      subst e1
      simp only [GoSet.absOf_has] at hb
      exact ⟨m'', rfl, .of_becomes ha hb hs⟩

/-- `Clear` of an existing set. -/
theorem clear_set {m : GoSet.Mem N} (ω : GoSet.Ord N) (h : m.WF) {a : MRef} (ha : m.Ok a) (hne : a ≠ none) :
    Upd m a (fun _ => False) (GoSet.clear ω m a) := by
  obtain ⟨m', r, s', he, ⟨rfl, hb⟩, hs⟩ := GoSet.sim_step ω (GoSet.sim_absOf h) (.clear a) (GoSet.absOf_ok.2 ha)
  cases a with
  | none => contradiction
  | some a =>
    simp only [GoSet.exec, Option.some.injEq, Prod.mk.injEq] at he
    obtain ⟨e1, _⟩ := he
    subst e1
    exact .of_becomes ha hb hs

theorem new_set {m : GoSet.Mem N} (ω : GoSet.Ord N) (h : m.WF) : Makes m (some (GoSet.new m)) (fun _ => False) := by
  obtain ⟨m', r, s', he, ⟨n, rfl, hc⟩, hs⟩ := GoSet.sim_step ω (GoSet.sim_absOf h) .new trivial
  simp only [GoSet.exec, Option.some.injEq, Prod.mk.injEq] at he
  obtain ⟨e1, e2⟩ := he
  injection e2 with e2
  have := Makes.of_creates hc hs
  rw [← e1, ← e2] at this
  exact this

/-- Listing a set. -/
theorem keys_set {m : GoSet.Mem N} (ω : GoSet.Ord N) (h : m.WF) (a : MRef) :
    (m.keys ω a).1.WF ∧ (∀ r, m.Ok r → (m.keys ω a).1.Ok r) ∧ (∀ r x, contain (m.keys ω a).1 r x = contain m r x) ∧
    (m.keys ω a).2.Nodup ∧ ∀ x, x ∈ (m.keys ω a).2 ↔ contain m a x = true := by
  have hk := MMem.keys_spec h ω a
  exact ⟨h.tick _, fun r hr => by cases r <;> exact hr, fun r x => by cases r <;> rfl, hk.1, hk.2.1⟩

/-! ## The vector calls used -/

theorem pt_order : Vec.Order (ptLess (N := N)) ptEq := by
  refine ⟨by simp [ptLess], ?_, ?_, ?_⟩
  · intro a b c; simp only [ptLess, decide_eq_true_eq]; omega
  · intro a b; simp only [ptLess, decide_eq_true_eq, decide_eq_false_iff_not]; omega
  · intro a b; simp only [ptLess, ptEq, decide_eq_true_eq, decide_eq_false_iff_not]; omega

/-- The vector has the elements `l` and the comparison functions of the ring. -/
structure VInv (vm : Vec.VMem (Pt N)) (v : Nat) (l : List (Pt N)) : Prop where
  ex : ∃ s, Vec.Rel vm s ∧ v < vm.nv ∧ s.l v = l ∧ s.less v = .fn ptLess ∧ s.eq v = .fn ptEq

/-- The points are in order. -/
def Sorted (l : List (Pt N)) : Prop := l.Pairwise (fun a b => a.hash ≤ b.hash)

theorem vcall_push {vm : Vec.VMem (Pt N)} {v : Nat} {l : List (Pt N)} (h : VInv vm v l) (xs : List (Pt N)) :
    ∃ vm', vcall e vm (.push v xs) = some vm' ∧ VInv vm' v (l ++ xs) := by
  obtain ⟨s, hr, hv, hl, h1, h2⟩ := h.ex
  rcases Vec.step' (E := e.elt) (g := e.g) (P := e.P) hr (.push v xs) (by intro w hw; injection hw with hw; omega) with
    ⟨e0, _⟩ | ⟨m', r, s', p, e1, e2, e3, e4⟩
  · cases e0
  · simp only [Vec.spec, Option.some.injEq, Prod.mk.injEq] at e2
    obtain ⟨e2, _⟩ := e2
    subst e2
    exact ⟨m', by simp [vcall, e1], _, e3, by rw [e3.n]; simp only [Vec.SState.put]; rw [← hr.n]; exact hv,
      by simp [Vec.SState.put, hl], h1, h2⟩

theorem vcall_clear {vm : Vec.VMem (Pt N)} {v : Nat} {l : List (Pt N)} (h : VInv vm v l) :
    ∃ vm', vcall e vm (.clear v) = some vm' ∧ VInv vm' v [] := by
  obtain ⟨s, hr, hv, hl, h1, h2⟩ := h.ex
  rcases Vec.step' (E := e.elt) (g := e.g) (P := e.P) hr (.clear v) (by intro w hw; injection hw with hw; omega) with
    ⟨e0, _⟩ | ⟨m', r, s', p, e1, e2, e3, e4⟩
  · cases e0
  · simp only [Vec.spec, Option.some.injEq, Prod.mk.injEq] at e2
    obtain ⟨e2, _⟩ := e2
    subst e2
    exact ⟨m', by simp [vcall, e1], _, e3, by rw [e3.n]; simp only [Vec.SState.put]; rw [← hr.n]; exact hv,
      by simp [Vec.SState.put], h1, h2⟩

theorem VInv.cmp {vm : Vec.VMem (Pt N)} {v : Nat} {l : List (Pt N)} (h : VInv vm v l) :
    vm.less e.elt v = some ptLess ∧ vm.eq e.elt v = some ptEq := by
  obtain ⟨s, hr, hv, hl, h1, h2⟩ := h.ex
  constructor
  · rw [hr.lessOf]; simp [Vec.SState.lessOf, Vec.resolve, h1]
  · rw [hr.eqOf]; simp [Vec.SState.eqOf, Vec.resolve, h2]

theorem VInv.shows {vm : Vec.VMem (Pt N)} {v : Nat} {l : List (Pt N)} (h : VInv vm v l) :
    Vec.Shows e.elt e.g vm v l := by
  obtain ⟨s, hr, hv, hl, h1, h2⟩ := h.ex
  rw [← hl]; exact hr.shows hv

theorem vcall_sort {vm : Vec.VMem (Pt N)} {v : Nat} {l : List (Pt N)} (h : VInv vm v l) :
    ∃ vm' l', vcall e vm (.sort v) = some vm' ∧ VInv vm' v l' ∧ l'.Perm l ∧ Sorted l' := by
  obtain ⟨c1, c2⟩ := h.cmp (e := e)
  obtain ⟨s, hr, hv, hl, h1, h2⟩ := h.ex
  have hw : ∀ a b : Pt N, ptLess b a = false → a.hash ≤ b.hash := by
    intro a b; simp only [ptLess, decide_eq_false_iff_not]; omega
  obtain ⟨l', e1, e2, e3⟩ := Vec.sort_common e.P.sort_ok ((pt_order (N := N)).on (· ∈ l))
  rcases Vec.step' (E := e.elt) (g := e.g) (P := e.P) hr (.sort v) (by intro w hw; injection hw with hw; omega) with
    ⟨_, f1⟩ | ⟨m', r, s', p, f1, f2, f3, f4⟩
  · simp [Vec.spec, ← hr.lessOf, ← hr.eqOf, c1, c2, hl, e1] at f1
  · simp only [Vec.spec, ← hr.lessOf, ← hr.eqOf, c1, c2, hl, e1, Option.map_some, Option.some.injEq, Prod.mk.injEq] at f2
    obtain ⟨f2, _⟩ := f2
    subst f2
    exact ⟨m', l', by simp [vcall, f1], ⟨_, f3, by rw [f3.n]; simp only [Vec.SState.put]; rw [← hr.n]; exact hv,
      by simp [Vec.SState.put], h1, h2⟩, e2, e3.imp (hw _ _)⟩

theorem pushPts_spec (val : N) (v : Nat) : ∀ (k i : Nat) (vm : Vec.VMem (Pt N)) (l : List (Pt N)), VInv vm v l →
    ∃ vm', pushPts e val v k i vm = some vm' ∧
      VInv vm' v (l ++ (List.range' i k).map (fun j => ⟨val, e.hash val j⟩)) := by
  intro k
  induction k with
  | zero => intro i vm l h; exact ⟨vm, rfl, by simpa using h⟩
  | succ k ih =>
    intro i vm l h
    obtain ⟨vm1, h1, h2⟩ := vcall_push (e := e) h [⟨val, e.hash val i⟩]
    obtain ⟨vm2, h3, h4⟩ := ih (i + 1) vm1 _ h2
    refine ⟨vm2, by simp [pushPts, h1, h3], ?_⟩
    simpa [List.range'_succ] using h4

theorem addLoop_spec (v : Nat) (r : Int) : ∀ (es : List N) (vm : Vec.VMem (Pt N)) (l : List (Pt N)), VInv vm v l →
    ∃ vm', GoSet.rangeLoop (addBody e v r) vm es = some vm' ∧
      VInv vm' v (l ++ es.flatMap (points e.hash r.toNat)) := by
  intro es
  induction es with
  | nil => intro vm l h; exact ⟨vm, rfl, by simpa using h⟩
  | cons x es ih =>
    intro vm l h
    obtain ⟨vm1, h1, h2⟩ := pushPts_spec (e := e) x v r.toNat 0 vm l h
    obtain ⟨vm2, h3, h4⟩ := ih vm1 _ h2
    refine ⟨vm2, by simp [GoSet.rangeLoop, addBody, h1, h3], ?_⟩
    simpa [points, List.range_eq_range'] using h4

/-! ## The invariant -/

/-- The ring has the members `M` and the list of points `l`. -/
structure Inv (e : Env N) (hr : Ring N) (M : N → Prop) (l : List (Pt N)) : Prop where
  wf : hr.sm.WF
  ok : hr.sm.Ok hr.raw
  ne : hr.raw ≠ none
  raw : ∀ x, contain hr.sm hr.raw x = true ↔ M x
  vec : VInv hr.vm hr.nodes l
  sorted : Sorted l
  pts : ∃ ms : List N, ms.Nodup ∧ (∀ x, x ∈ ms ↔ M x) ∧ l.Perm (ms.flatMap (points e.hash hr.replicas.toNat))

theorem Inv.congr {hr : Ring N} {M M' : N → Prop} {l : List (Pt N)} (h : Inv e hr M l) (hm : ∀ x, M x ↔ M' x) :
    Inv e hr M' l := by
  obtain ⟨ms, h1, h2, h3⟩ := h.pts
  exact ⟨h.wf, h.ok, h.ne, fun x => (h.raw x).trans (hm x), h.vec, h.sorted, ms, h1, fun x => (h2 x).trans (hm x), h3⟩

theorem new_inv (r : Int) : ∃ hr, new e r = some hr ∧ hr.replicas = r ∧ Inv e hr (fun _ => False) [] := by
  obtain ⟨m', d, he, hne, hno, hwf, hok, hm, _⟩ := new_set e.ω (MMem.WF.empty : (MMem.empty : GoSet.Mem N).WF)
  injection he with he
  rcases Vec.step' (E := e.elt) (g := e.g) (P := e.P) (Vec.empty_rel (T := Pt N)) (.new (some ptLess) (some ptEq))
    (by intro w hw; cases hw) with ⟨e0, e1⟩ | ⟨vm', r', s', p, e1, e2, e3, e4⟩
  · cases e0
  · have e1' : vcall e Vec.VMem.empty (.new (some ptLess) (some ptEq)) = some vm' := by simp [vcall, e1]
    simp only [Vec.spec, Option.some.injEq, Prod.mk.injEq] at e2
    obtain ⟨e2, _⟩ := e2
    subst e2
    refine ⟨⟨r, m', d, vm', 0⟩, by simp [new, e1', he], rfl, hwf, hok, hne, hm, ?_, .nil, [], .nil, by simp, by simp⟩
    exact ⟨_, e3, by rw [e3.n]; simp [Vec.SState.empty], by simp [Vec.SState.empty],
      by simp [Vec.SState.empty, Vec.ofOpt], by simp [Vec.SState.empty, Vec.ofOpt]⟩

theorem addNodes_inv {hr : Ring N} {M : N → Prop} {l : List (Pt N)} (h : Inv e hr M l) (ns : List N) :
    ∃ hr' l', addNodes e hr ns = some hr' ∧ hr'.replicas = hr.replicas ∧ Inv e hr' (fun x => M x ∨ x ∈ ns) l' := by
  unfold addNodes
  by_cases hn : ns.length = 0
  · have : ns = [] := List.length_eq_zero_iff.1 hn
    subst this
    exact ⟨hr, l, by simp, rfl, h.congr (by simp)⟩
  · rw [if_neg hn]
    obtain ⟨m1, t, e1, ne1, no1, wf1, ok1, mem1, oth1⟩ := new_set e.ω h.wf
    injection e1 with e1
    obtain ⟨m2, e2, u2⟩ := push_set e.ω wf1 ok1 ne1 ns
    have raw1 := oth1 _ h.ok
    have raw2ok := u2.ok _ raw1.1
    have hrt : hr.raw ≠ t := by intro hh; exact no1 (hh ▸ h.ok)
    obtain ⟨m3, s, e3, ne3, no3, wf3, ok3, mem3, oth3⟩ := GoSet.C44_difference e.ω u2.wf (u2.ok _ ok1) raw2ok
    obtain ⟨wf4, ok4, mem4, nd4, in4⟩ := keys_set e.ω wf3 s
    obtain ⟨vm5, e5, v5⟩ := addLoop_spec (e := e) hr.nodes hr.replicas (m3.keys e.ω s).2 hr.vm l h.vec
    obtain ⟨wf6, ok6, mem6, nd6, in6⟩ := keys_set e.ω wf4 s
    have rawok := ok6 _ (ok4 _ (oth3 _ raw2ok).1)
    obtain ⟨m7, e7, u7⟩ := push_set e.ω wf6 rawok h.ne ((m3.keys e.ω s).1.keys e.ω s).2
    obtain ⟨vm8, l8, e8, v8, p8, s8⟩ := vcall_sort (e := e) v5
    -- what is in the set of new nodes
    have hs : ∀ x, contain m3 s x = true ↔ x ∈ ns ∧ ¬ M x := by
      intro x
      rw [mem3]
      dsimp only
      rw [u2.mem, u2.other _ raw1.1 hrt, raw1.2, h.raw, mem1]
      simp
    have hraw : ∀ x, contain m3 hr.raw x = true ↔ M x := by
      intro x
      rw [(oth3 _ raw2ok).2, u2.other _ raw1.1 hrt, raw1.2, h.raw]
    refine ⟨{ hr with sm := m7, vm := vm8 }, l8, ?_, rfl, ?_⟩
    · simp only [e1, e2, e3, Option.bind_eq_bind, Option.bind_some, e5, GoSet.slice, e7, e8]
    · refine ⟨u7.wf, u7.ok _ rawok, h.ne, ?_, v8, s8, ?_⟩
      · intro x
        rw [u7.mem, mem6, mem4, hraw, in6, mem4, hs]
        constructor
        · rintro (h' | h')
          · exact .inl h'
          · exact .inr h'.1
        · rintro (h' | h')
          · exact .inl h'
          · by_cases hx : M x
            · exact .inl hx
            · exact .inr ⟨h', hx⟩
      · obtain ⟨ms, n1, n2, n3⟩ := h.pts
        refine ⟨ms ++ (m3.keys e.ω s).2, ?_, ?_, ?_⟩
        · rw [List.nodup_append]
          refine ⟨n1, nd4, ?_⟩
          intro a ha b hb hab
          subst hab
          rw [in4, hs] at hb
          exact hb.2 ((n2 a).1 ha)
        · intro x
          rw [List.mem_append, n2, in4, hs]
          constructor
          · rintro (h' | h')
            · exact .inl h'
            · exact .inr h'.1
          · rintro (h' | h')
            · exact .inl h'
            · by_cases hx : M x
              · exact .inl hx
              · exact .inr ⟨h', hx⟩
        · rw [List.flatMap_append]
          exact p8.trans (n3.append_right _)

theorem resetNodes_inv {hr : Ring N} {M : N → Prop} {l : List (Pt N)} (h : Inv e hr M l) (ns : List N) :
    ∃ hr' l', resetNodes e hr ns = some hr' ∧ hr'.replicas = hr.replicas ∧ Inv e hr' (fun x => x ∈ ns) l' := by
  obtain ⟨vm1, e1, v1⟩ := vcall_clear (e := e) h.vec
  have u := clear_set e.ω h.wf h.ok h.ne
  have hi : Inv e { hr with vm := vm1, sm := GoSet.clear e.ω hr.sm hr.raw } (fun _ => False) [] :=
    ⟨u.wf, u.ok _ h.ok, h.ne, u.mem, v1, .nil, [], .nil, by simp, by simp⟩
  obtain ⟨hr', l', e2, e3, e4⟩ := addNodes_inv hi ns
  exact ⟨hr', l', by simp [resetNodes, e1, e2], e3, e4.congr (by simp)⟩

theorem removeNodes_inv {hr : Ring N} {M : N → Prop} {l : List (Pt N)} (h : Inv e hr M l) (ns : List N) :
    ∃ hr' l', removeNodes e hr ns = some hr' ∧ hr'.replicas = hr.replicas ∧ Inv e hr' (fun x => M x ∧ x ∉ ns) l' := by
  unfold removeNodes
  by_cases hn : ns.length = 0
  · have : ns = [] := List.length_eq_zero_iff.1 hn
    subst this
    exact ⟨hr, l, by simp, rfl, h.congr (by simp)⟩
  · rw [if_neg hn]
    obtain ⟨m1, t, e1, ne1, no1, wf1, ok1, mem1, oth1⟩ := new_set e.ω h.wf
    injection e1 with e1
    obtain ⟨m2, e2, u2⟩ := push_set e.ω wf1 ok1 ne1 ns
    have raw1 := oth1 _ h.ok
    have raw2ok := u2.ok _ raw1.1
    have hrt : hr.raw ≠ t := by intro hh; exact no1 (hh ▸ h.ok)
    have hraw2 : ∀ x, contain m2 hr.raw x = true ↔ M x := by
      intro x; rw [u2.other _ raw1.1 hrt, raw1.2, h.raw]
    obtain ⟨m3, s, e3, ne3, no3, wf3, ok3, mem3, oth3⟩ := GoSet.C44_intersection e.ω u2.wf raw2ok (u2.ok _ ok1)
    have raw3 := oth3 _ raw2ok
    obtain ⟨m4, d, e4, ne4, no4, wf4, ok4, mem4, oth4⟩ := GoSet.C44_difference e.ω wf3 raw3.1 ok3
    have raw4 := oth4 _ raw3.1
    obtain ⟨wf5, ok5, mem5, nd5, in5⟩ := keys_set e.ω wf4 d
    have hi : Inv e { hr with sm := (m4.keys e.ω d).1 } M l :=
      ⟨wf5, ok5 _ raw4.1, h.ne, fun x => by rw [mem5, raw4.2, raw3.2, hraw2], h.vec, h.sorted, h.pts⟩
    obtain ⟨hr', l', e6, e7, e8⟩ := resetNodes_inv hi (m4.keys e.ω d).2
    refine ⟨hr', l', ?_, e7, e8.congr ?_⟩
    · simp only [e1, e2, e3, e4, Option.bind_eq_bind, Option.bind_some, GoSet.slice, e6]
    · intro x
      rw [in5, mem4]
      dsimp only
      rw [raw3.2, hraw2, mem3]
      dsimp only
      rw [hraw2, u2.mem, mem1]
      simp only [Bool.false_eq_true, false_or]
      constructor
      · rintro ⟨h1, h2⟩
        exact ⟨h1, fun h3 => h2 ⟨h1, h3⟩⟩
      · rintro ⟨h1, h2⟩
        exact ⟨h1, fun h3 => h2 h3.2⟩

theorem exec_inv {hr : Ring N} {M : N → Prop} {l : List (Pt N)} (h : Inv e hr M l) (c : Call N) :
    ∃ hr' l', exec e hr c = some hr' ∧ hr'.replicas = hr.replicas ∧ Inv e hr' (c.apply M) l' := by
  cases c with
  | add ns => exact addNodes_inv h ns
  | remove ns => exact removeNodes_inv h ns
  | reset ns => exact resetNodes_inv h ns

theorem run_inv (r : Int) (cs : List (Call N)) :
    ∃ hr l, run e r cs = some hr ∧ hr.replicas = r ∧ Inv e hr (members cs) l := by
  obtain ⟨hr, h1, h2, h3⟩ := new_inv (e := e) r
  suffices ∀ (cs : List (Call N)) (hr : Ring N) (M : N → Prop) (l : List (Pt N)), Inv e hr M l →
      ∃ hr' l', cs.foldlM (exec e) hr = some hr' ∧ hr'.replicas = hr.replicas ∧ Inv e hr' (cs.foldl Call.apply M) l' by
    obtain ⟨hr', l', a1, a2, a3⟩ := this cs hr _ _ h3
    exact ⟨hr', l', by simp [run, h1, a1], a2.trans h2, a3⟩
  intro cs
  induction cs with
  | nil => intro hr M l h; exact ⟨hr, l, rfl, rfl, h⟩
  | cons c cs ih =>
    intro hr M l h
    obtain ⟨hr1, l1, a1, a2, a3⟩ := exec_inv h c
    obtain ⟨hr2, l2, b1, b2, b3⟩ := ih hr1 _ _ a3
    exact ⟨hr2, l2, by simp [a1, b1], b2.trans a2, b3⟩

end Verif.HashRing
