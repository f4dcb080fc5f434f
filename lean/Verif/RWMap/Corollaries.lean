import Verif.RWMap.Spec
/-!
# Consequences of linearizability

These are about histories only; the model is not mentioned.
-/
namespace Verif.RWMap
variable {K V : Type} [DecidableEq K]
variable {eqv : V → V → Option Bool} {prog : Nat → Op K V}

theorem effects_append (L M : List (LEv K V)) (A : AMap K V) :
    effects eqv prog (L ++ M) A = effects eqv prog M (effects eqv prog L A) := by
  induction L generalizing A with
  | nil => rfl
  | cons x L ih => cases x <;> exact ih _

theorem apply_other {op : Op K V} {k : K} (h : op.writes k = false) (A : AMap K V) :
    (apply eqv op A).1 k = A k := by
  cases op <;> simp only [Op.writes, Op.stores, decide_eq_false_iff_not, Bool.true_eq_false] at h <;>
    simp only [apply]
  all_goals repeat' split
  all_goals first | rfl | simp [AMap.set, Ne.symm h]

theorem isMap_of_writes {op : Op K V} {k : K} (h : op.writes k = true) : op.isMap = true := by
  cases op <;> simp_all [Op.writes, Op.stores, Op.isMap]

section
variable {L : List (LEv K V)} {h : List (Ev K V)}

theorem mem_inv_of_lin (H : Linearizes eqv prog L h) {i : Nat} : .inv i ∈ L ↔ Ev.inv i ∈ h := by
  rw [← H.1, List.mem_filterMap]
  constructor
  · intro hi; exact ⟨_, hi, rfl⟩
  · rintro ⟨x, hx, hxe⟩; cases x <;> simp_all [LEv.ev?]

theorem mem_ret_of_lin (H : Linearizes eqv prog L h) {i : Nat} {r : Res K V} :
    .ret i r ∈ L ↔ Ev.ret i r ∈ h := by
  rw [← H.1, List.mem_filterMap]
  constructor
  · intro hi; exact ⟨_, hi, rfl⟩
  · rintro ⟨x, hx, hxe⟩; cases x <;> simp_all [LEv.ev?]

/-- Effects come after invocations, and only once. -/
theorem eff_once (H : Linearizes eqv prog L h) {i : Nat} (hm : (prog i).isMap = true)
    {M M' : List (LEv K V)} (hL : L = M ++ .eff i :: M') :
    .inv i ∈ M ∧ .eff i ∉ M ∧ .eff i ∉ M' := by
  have hs := (H.2 i hm).1
  rw [hL] at hs
  simp only [List.filter_append, List.filter_cons, LEv.call, beq_self_eq_true, if_true] at hs
  have key : ∀ {P Q : List (LEv K V)}, (P ++ .eff i :: Q = [] ∨ P ++ .eff i :: Q = [.inv i] ∨
      P ++ .eff i :: Q = [.inv i, .eff i] ∨ ∃ r, P ++ .eff i :: Q = [.inv i, .eff i, .ret i r]) →
      P = [.inv i] ∧ (Q = [] ∨ ∃ r, Q = [.ret i r]) := by
    intro P Q hP
    match P, hP with
    | [], hP => simp at hP
    | [a], hP => simp at hP; rcases hP with ⟨rfl, h⟩ | ⟨rfl, h⟩ <;> simp [h]
    | [a, b], hP => simp at hP
    | a :: b :: c :: P, hP => simp at hP
  obtain ⟨h1, h2⟩ := key hs
  have m1 : ∀ x ∈ M, x.call = i → x = .inv i := by
    intro x hx hxi
    have : x ∈ M.filter (·.call == i) := by simp [hx, hxi]
    have h1' : M.filter (·.call == i) = [.inv i] := h1
    rw [h1'] at this; simpa using this
  refine ⟨?_, fun hx => ?_, fun hx => ?_⟩
  · have h1' : M.filter (·.call == i) = [.inv i] := h1
    have : LEv.inv i ∈ M.filter (·.call == i) := by rw [h1']; simp
    exact (List.mem_filter.1 this).1
  · cases m1 _ hx rfl
  · have : LEv.eff i ∈ M'.filter (·.call == i) := by simp [hx, LEv.call]
    have h2' : M'.filter (·.call == i) = [] ∨ ∃ r, M'.filter (·.call == i) = [.ret i r] := h2
    rcases h2' with h2' | ⟨r, h2'⟩ <;> rw [h2'] at this <;> simp at this

/-- A call that returned took effect, with the result it returned. -/
theorem ret_eff (H : Linearizes eqv prog L h) {i : Nat} (hm : (prog i).isMap = true) {r : Res K V}
    (hr : Ev.ret i r ∈ h) : ∃ M M', L = M ++ .eff i :: M' ∧
      r = resultOn eqv prog i (effects eqv prog M AMap.empty) := by
  have hr' := (mem_ret_of_lin H).2 hr
  have hmem : LEv.ret i r ∈ L.filter (·.call == i) := by simp [hr', LEv.call]
  have hs := (H.2 i hm).1
  have heff : LEv.eff i ∈ L := by
    rcases hs with e | e | e | ⟨r', e⟩ <;> rw [e] at hmem <;> simp at hmem
    have : LEv.eff i ∈ L.filter (·.call == i) := by rw [e]; simp
    exact (List.mem_filter.1 this).1
  obtain ⟨M, M', rfl⟩ := List.append_of_mem heff
  refine ⟨M, M', rfl, (H.2 i hm).2 M M' r rfl ?_⟩
  simp only [List.mem_append, List.mem_cons, reduceCtorEq, false_or] at hr'
  rcases hr' with hr' | hr'
  · exfalso
    have hmM : LEv.ret i r ∈ M.filter (·.call == i) := by simp [hr', LEv.call]
    simp only [List.filter_append, List.filter_cons, LEv.call, beq_self_eq_true, if_true] at hs
    have : ∀ {P Q : List (LEv K V)}, (P ++ .eff i :: Q = [] ∨ P ++ .eff i :: Q = [.inv i] ∨
        P ++ .eff i :: Q = [.inv i, .eff i] ∨ ∃ r, P ++ .eff i :: Q = [.inv i, .eff i, .ret i r]) →
        LEv.ret i r ∉ P := by
      intro P Q hP
      match P, hP with
      | [], hP => simp
      | [a], hP => simp at hP; rcases hP with ⟨rfl, _⟩ | ⟨rfl, _⟩ <;> simp
      | [a, b], hP => simp at hP
      | a :: b :: c :: P, hP => simp at hP
    exact this hs hmM
  · exact hr'

/-- Every effect in a linearization that changes `k` is by a call that may write `k`. -/
theorem eff_snoc (M : List (LEv K V)) (i : Nat) (A : AMap K V) :
    effects eqv prog (M ++ [.eff i]) A = (apply eqv (prog i) (effects eqv prog M A)).1 := by
  rw [effects_append]; rfl

/-- One winner. -/
theorem los_winner (H : Linearizes eqv prog L h) {k : K}
    (honly : ∀ i, Ev.inv i ∈ h → (prog i).writes k = true → ∃ v, prog i = .loadOrStore k v)
    {i0 : Nat} {v0 : V} {r0 : Res K V} (h0 : prog i0 = .loadOrStore k v0) (hr0 : Ev.ret i0 r0 ∈ h) :
    ∃ w v, prog w = .loadOrStore k v ∧ Ev.inv w ∈ h ∧ ∀ i vi r, prog i = .loadOrStore k vi →
      Ev.ret i r ∈ h → r = .los v (i ≠ w) := by
  have claim : ∀ (n : Nat) (L1 L2 : List (LEv K V)), L1.length = n → L = L1 ++ L2 →
      (effects eqv prog L1 AMap.empty k = none ∧ ∀ i v, prog i = .loadOrStore k v → .eff i ∉ L1) ∨
      ∃ w v, prog w = .loadOrStore k v ∧ .eff w ∈ L1 ∧
        effects eqv prog L1 AMap.empty k = some v ∧
        ∀ M i vi M', prog i = .loadOrStore k vi → L1 = M ++ .eff i :: M' →
          effects eqv prog M AMap.empty k = if i = w then none else some v := by
    intro n
    induction n with
    | zero =>
      intro L1 L2 hn _
      rw [List.length_eq_zero_iff] at hn
      subst hn
      exact Or.inl ⟨rfl, by simp⟩
    | succ n ih =>
      intro L1 L2 hn hL
      rcases List.eq_nil_or_concat L1 with rfl | ⟨L0, x, rfl⟩
      · simp at hn
      rw [List.concat_eq_append] at hn hL ⊢
      simp at hn
      have IH := ih L0 (x :: L2) hn (by rw [hL]; simp)
      have hsplit : ∀ M i (M' : List (LEv K V)), L0 ++ [x] = M ++ .eff i :: M' →
          (M' = [] ∧ M = L0 ∧ x = .eff i) ∨ ∃ M'', L0 = M ++ .eff i :: M'' := by
        intro M i M' he
        rcases List.eq_nil_or_concat M' with rfl | ⟨N, y, rfl⟩
        · have := List.append_inj' he rfl
          simp at this
          exact Or.inl ⟨rfl, this.1.symm, this.2⟩
        · rw [List.concat_eq_append, ← List.cons_append, ← List.append_assoc] at he
          exact Or.inr ⟨N, (List.append_inj' he rfl).1⟩
      cases x with
      | inv j =>
        have e : effects eqv prog (L0 ++ [.inv j]) AMap.empty = effects eqv prog L0 AMap.empty := by
          rw [effects_append]; rfl
        rw [e]
        rcases IH with ⟨a, b⟩ | ⟨w, v, a, b, c, d⟩
        · exact Or.inl ⟨a, fun i v hi hm => b i v hi (by simpa using hm)⟩
        · refine Or.inr ⟨w, v, a, by simp [b], c, ?_⟩
          intro M i vi M' hi hM
          rcases hsplit M i M' hM with ⟨_, _, h3⟩ | ⟨M'', h3⟩
          · cases h3
          · exact d M i vi M'' hi h3
      | ret j r =>
        have e : effects eqv prog (L0 ++ [.ret j r]) AMap.empty = effects eqv prog L0 AMap.empty := by
          rw [effects_append]; rfl
        rw [e]
        rcases IH with ⟨a, b⟩ | ⟨w, v, a, b, c, d⟩
        · exact Or.inl ⟨a, fun i v hi hm => b i v hi (by simpa using hm)⟩
        · refine Or.inr ⟨w, v, a, by simp [b], c, ?_⟩
          intro M i vi M' hi hM
          rcases hsplit M i M' hM with ⟨_, _, h3⟩ | ⟨M'', h3⟩
          · cases h3
          · exact d M i vi M'' hi h3
      | visit j kk vv =>
        have e : effects eqv prog (L0 ++ [.visit j kk vv]) AMap.empty = effects eqv prog L0 AMap.empty := by
          rw [effects_append]; rfl
        rw [e]
        rcases IH with ⟨a, b⟩ | ⟨w, v, a, b, c, d⟩
        · exact Or.inl ⟨a, fun i v hi hm => b i v hi (by simpa using hm)⟩
        · refine Or.inr ⟨w, v, a, by simp [b], c, ?_⟩
          intro M i vi M' hi hM
          rcases hsplit M i M' hM with ⟨_, _, h3⟩ | ⟨M'', h3⟩
          · cases h3
          · exact d M i vi M'' hi h3
      | eff j =>
        rw [eff_snoc]
        by_cases hw : (prog j).writes k = true
        · have hmj := isMap_of_writes hw
          have hone := eff_once H hmj (M := L0) (M' := L2) (by rw [hL]; simp)
          obtain ⟨v, hv⟩ := honly j ((mem_inv_of_lin H).1 (by rw [hL]; simp [hone.1])) hw
          rcases IH with ⟨a, b⟩ | ⟨w, u, a, b, c, d⟩
          · refine Or.inr ⟨j, v, hv, by simp, ?_, ?_⟩
            · simp only [hv, apply, a]
              simp [AMap.set]
            · intro M i vi M' hi hM
              rcases hsplit M i M' hM with ⟨_, rfl, h3⟩ | ⟨M'', h3⟩
              · cases h3; simp [a]
              · exact absurd (by rw [h3]; simp) (b i vi hi)
          · have hjw : j ≠ w := by rintro rfl; exact hone.2.1 b
            refine Or.inr ⟨w, u, a, by simp [b], ?_, ?_⟩
            · simp only [hv, apply, c]
            · intro M i vi M' hi hM
              rcases hsplit M i M' hM with ⟨_, rfl, h3⟩ | ⟨M'', h3⟩
              · cases h3; rw [if_neg hjw]; exact c
              · exact d M i vi M'' hi h3
        · have hw' : (prog j).writes k = false := by simpa using hw
          have hne : ∀ v, prog j ≠ .loadOrStore k v := by
            intro v hv; rw [hv] at hw; simp [Op.writes, Op.stores] at hw
          rw [apply_other hw']
          rcases IH with ⟨a, b⟩ | ⟨w, v, a, b, c, d⟩
          · refine Or.inl ⟨a, fun i v hi hm => ?_⟩
            simp only [List.mem_append, List.mem_singleton, LEv.eff.injEq] at hm
            rcases hm with hm | rfl
            · exact b i v hi hm
            · exact hne v hi
          · refine Or.inr ⟨w, v, a, by simp [b], c, ?_⟩
            intro M i vi M' hi hM
            rcases hsplit M i M' hM with ⟨_, _, h3⟩ | ⟨M'', h3⟩
            · cases h3; exact absurd hi (hne vi)
            · exact d M i vi M'' hi h3
  have hm0 : ∀ {i v}, prog i = .loadOrStore k v → (prog i).isMap = true := by
    intro i v hi; rw [hi]; rfl
  obtain ⟨M0, M0', hM0, _⟩ := ret_eff H (hm0 h0) hr0
  rcases claim _ L [] rfl (by simp) with ⟨_, b⟩ | ⟨w, v, a, b, _, d⟩
  · exact absurd (by rw [hM0]; simp) (b i0 v0 h0)
  · obtain ⟨Mw, Mw', hMw⟩ := List.append_of_mem b
    have hone := eff_once H (hm0 a) hMw
    refine ⟨w, v, a, (mem_inv_of_lin H).1 (by rw [hMw]; simp [hone.1]), ?_⟩
    intro i vi r hi hr
    obtain ⟨M, M', hM, hres⟩ := ret_eff H (hm0 hi) hr
    have hd := d M i vi M' hi hM
    rw [hres, resultOn]
    simp only [hi, apply, hd]
    by_cases hiw : i = w
    · subst hiw
      rw [hi] at a
      simp at a
      simp [a]
    · simp [hiw]

/-- Call `i` removes `k` in `L1`. -/
def Rem (eqv : V → V → Option Bool) (prog : Nat → Op K V) (k : K) (L1 : List (LEv K V)) (i : Nat) : Prop :=
  ∃ M M', L1 = M ++ .eff i :: M' ∧
    effects eqv prog M AMap.empty k ≠ none ∧ effects eqv prog (M ++ [.eff i]) AMap.empty k = none

/-- At most one remover. -/
theorem one_remover (H : Linearizes eqv prog L h) {k : K} {st : Nat}
    (honly : ∀ i, Ev.inv i ∈ h → (prog i).stores k = true → i = st)
    {i j : Nat} {r r' : Res K V} {o o' : Option V} (hi : Ev.ret i r ∈ h) (hj : Ev.ret j r' ∈ h)
    (hri : (prog i).Removed k r o) (hrj : (prog j).Removed k r' o') :
    i = j ∧ ∀ v, o = some v → (prog st).Stored k v := by
  have claim : ∀ (n : Nat) (L1 L2 : List (LEv K V)), L1.length = n → L = L1 ++ L2 →
      (∀ i j, Rem eqv prog k L1 i → Rem eqv prog k L1 j → i = j) ∧
      (∀ v, effects eqv prog L1 AMap.empty k = some v → (∀ i, ¬ Rem eqv prog k L1 i) ∧ (prog st).Stored k v) ∧
      (.eff st ∉ L1 → effects eqv prog L1 AMap.empty k = none ∧ ∀ i, ¬ Rem eqv prog k L1 i) := by
    intro n
    induction n with
    | zero =>
      intro L1 L2 hn _
      rw [List.length_eq_zero_iff] at hn
      subst hn
      have : ∀ i, ¬ Rem eqv prog k [] i := by rintro i ⟨M, M', h, _⟩; simp at h
      refine ⟨fun i j h => absurd h (this i), ?_, fun _ => ⟨rfl, this⟩⟩
      intro v hv; simp [effects, AMap.empty] at hv
    | succ n ih =>
      intro L1 L2 hn hL
      rcases List.eq_nil_or_concat L1 with rfl | ⟨L0, x, rfl⟩
      · simp at hn
      rw [List.concat_eq_append] at hn hL ⊢
      simp at hn
      obtain ⟨c1, c2, c3⟩ := ih L0 (x :: L2) hn (by rw [hL]; simp)
      have hsplit : ∀ i, Rem eqv prog k (L0 ++ [x]) i → Rem eqv prog k L0 i ∨ (x = .eff i ∧
          effects eqv prog L0 AMap.empty k ≠ none ∧
          effects eqv prog (L0 ++ [x]) AMap.empty k = none) := by
        rintro i ⟨M, M', he, h1, h2⟩
        rcases List.eq_nil_or_concat M' with rfl | ⟨N, y, rfl⟩
        · have := List.append_inj' he rfl
          simp at this
          obtain ⟨rfl, rfl⟩ := this
          exact Or.inr ⟨rfl, h1, h2⟩
        · rw [List.concat_eq_append, ← List.cons_append, ← List.append_assoc] at he
          exact Or.inl ⟨M, N, (List.append_inj' he rfl).1, h1, h2⟩
      -- a step that does not change k
      have hsame : effects eqv prog (L0 ++ [x]) AMap.empty k = effects eqv prog L0 AMap.empty k →
          (∀ i j, Rem eqv prog k (L0 ++ [x]) i → Rem eqv prog k (L0 ++ [x]) j → i = j) ∧
          (∀ v, effects eqv prog (L0 ++ [x]) AMap.empty k = some v → (∀ i, ¬ Rem eqv prog k (L0 ++ [x]) i) ∧ (prog st).Stored k v) ∧
          (.eff st ∉ L0 ++ [x] → effects eqv prog (L0 ++ [x]) AMap.empty k = none ∧
            ∀ i, ¬ Rem eqv prog k (L0 ++ [x]) i) := by
        intro e
        have hR : ∀ i, Rem eqv prog k (L0 ++ [x]) i → Rem eqv prog k L0 i := by
          intro i hi
          rcases hsplit i hi with h | ⟨_, h1, h2⟩
          · exact h
          · rw [e] at h2; exact absurd h2 h1
        refine ⟨fun i j a b => c1 i j (hR i a) (hR j b), ?_, ?_⟩
        · intro v hv
          rw [e] at hv
          exact ⟨fun i hi => (c2 v hv).1 i (hR i hi), (c2 v hv).2⟩
        · intro hst
          rw [e]
          have := c3 (fun h => hst (by simp [h]))
          exact ⟨this.1, fun i hi => this.2 i (hR i hi)⟩
      cases x with
      | inv j => exact hsame (by rw [effects_append]; rfl)
      | visit j kk vv => exact hsame (by rw [effects_append]; rfl)
      | ret j r => exact hsame (by rw [effects_append]; rfl)
      | eff j =>
        by_cases hw : (prog j).writes k = true
        rotate_left
        · refine hsame ?_
          rw [eff_snoc, apply_other (by simpa using hw)]
        have hmj := isMap_of_writes hw
        have hone := eff_once H hmj (M := L0) (M' := L2) (by rw [hL]; simp)
        have hinv : Ev.inv j ∈ h := (mem_inv_of_lin H).1 (by rw [hL]; simp [hone.1])
        by_cases hst : (prog j).stores k = true
        · have hjs := honly j hinv hst
          subst hjs
          obtain ⟨e0, hno⟩ := c3 hone.2.1
          have hR : ∀ i, ¬ Rem eqv prog k (L0 ++ [.eff j]) i := by
            intro i hi
            rcases hsplit i hi with h | ⟨_, h1, _⟩
            · exact hno i h
            · exact h1 e0
          refine ⟨fun i _ a => absurd a (hR i), ?_, fun h => absurd (by simp) h⟩
          intro v hv
          refine ⟨hR, ?_⟩
          rw [eff_snoc] at hv
          cases hp : prog j <;> simp only [hp, Op.stores, decide_eq_true_eq, Bool.false_eq_true] at hst <;>
            subst hst <;> simp only [hp, apply, e0, AMap.set, if_true, Option.some.injEq, reduceCtorEq] at hv
          · subst hv; exact Or.inl rfl
          · subst hv; exact Or.inr (Or.inl rfl)
        · -- a removal, or nothing
          have hst' : (prog j).stores k = false := by simpa using hst
          have hrem : (apply eqv (prog j) (effects eqv prog L0 AMap.empty)).1 k = none ∨
              (apply eqv (prog j) (effects eqv prog L0 AMap.empty)).1 k =
                effects eqv prog L0 AMap.empty k := by
            cases hp : prog j <;> simp only [hp, Op.stores, Op.writes, decide_eq_true_eq,
              decide_eq_false_iff_not, Bool.false_eq_true] at hst' hw
            all_goals first | exact absurd hw hst' | skip
            · subst hw; exact Or.inl (by simp [apply, AMap.set])
            · subst hw
              simp only [apply]
              split
              · split
                · exact Or.inl (by simp [AMap.set])
                · exact Or.inr rfl
                · exact Or.inr rfl
              · exact Or.inr rfl
            · exact Or.inl rfl
          rw [← eff_snoc (eqv := eqv) (prog := prog)] at hrem
          rcases hrem with hrem | hrem
          rotate_left
          · exact hsame hrem
          cases he : effects eqv prog L0 AMap.empty k with
          | none => exact hsame (by rw [hrem, he])
          | some v =>
            have hno := (c2 v he).1
            have hR : ∀ i, Rem eqv prog k (L0 ++ [.eff j]) i → i = j := by
              intro i hi
              rcases hsplit i hi with h | ⟨h, _, _⟩
              · exact absurd h (hno i)
              · cases h; rfl
            refine ⟨fun a b ha hb => (hR a ha).trans (hR b hb).symm, ?_, ?_⟩
            · intro w hv; rw [hrem] at hv; cases hv
            · intro hst
              have := c3 (fun h => hst (by simp [h]))
              rw [this.1] at he; cases he
  have hrem : ∀ {i r o}, Ev.ret i r ∈ h → (prog i).Removed k r o →
      ∃ M M' v, L = M ++ .eff i :: M' ∧ effects eqv prog M AMap.empty k = some v ∧
        effects eqv prog (M ++ [.eff i]) AMap.empty k = none ∧ (∀ u, o = some u → u = v) := by
    intro i r o hr hR
    have hm : (prog i).isMap = true := by
      rcases hR with ⟨h, _⟩ | ⟨_, h, _⟩ <;> rw [h] <;> rfl
    obtain ⟨M, M', hM, hres⟩ := ret_eff H hm hr
    rcases hR with ⟨hp, w, rfl, rfl⟩ | ⟨o, hp, rfl, rfl⟩
    · simp only [resultOn, hp, apply, Res.opt.injEq] at hres
      refine ⟨M, M', w, hM, hres.symm, ?_, by simp⟩
      rw [eff_snoc, hp]; simp [apply, AMap.set]
    · simp only [resultOn, hp, apply] at hres
      cases he : effects eqv prog M AMap.empty k with
      | none => simp [he] at hres
      | some v =>
        refine ⟨M, M', v, hM, he, ?_, by simp⟩
        rw [eff_snoc, hp]
        simp only [apply, he]
        simp only [he] at hres
        split at hres
        next hq => simp [hq, AMap.set]
        next => simp at hres
        next => simp at hres
  obtain ⟨Mi, Mi', v, hMi, e1, e2, e3⟩ := hrem hi hri
  obtain ⟨Mj, Mj', v', hMj, f1, f2, _⟩ := hrem hj hrj
  refine ⟨(claim _ L [] rfl (by simp)).1 i j ⟨Mi, Mi', hMi, by rw [e1]; simp, e2⟩
    ⟨Mj, Mj', hMj, by rw [f1]; simp, f2⟩, ?_⟩
  intro u hu
  have := ((claim _ Mi (.eff i :: Mi') rfl hMi).2.1 v e1).2
  rw [e3 u hu]
  exact this
end
end Verif.RWMap
