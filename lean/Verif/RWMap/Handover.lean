import Verif.RWMap.Props
import Mathlib.Data.List.Induction
/-!
# Who gets which value (C05 for keys that have been in use, C129)

First about histories only, then for RWMap.
-/
namespace Verif.RWMap
variable {K V : Type} [DecidableEq K]
variable {eqv : V → V → Option Bool} {prog : Nat → Op K V}

/-! ## Specification -/

/-- The result `r` of `op` says that the map had nothing for `k` at the instant `op` took effect, or has nothing for `k` since. -/
def Op.Absent (k : K) (op : Op K V) (r : Res K V) : Prop :=
  (op = .load k ∧ r = .opt none) ∨ op = .loadAndDelete k ∨ (∃ o, op = .compareAndDelete k o ∧ r = .bool true) ∨ op = .clear

/-- The result `r` of `op` says that `op` took the value `v` for `k` out of the map (and perhaps put another one in). -/
def Op.Took (eqv : V → V → Option Bool) (k : K) (op : Op K V) (r : Res K V) (v : V) : Prop :=
  (op = .loadAndDelete k ∧ r = .opt (some v)) ∨ (∃ n, op = .swap k n ∧ r = .opt (some v)) ∨
  (∃ o, op = .compareAndDelete k o ∧ r = .bool true ∧ eqv v o = some true) ∨
  ∃ o n, op = .compareAndSwap k o n ∧ r = .bool true ∧ eqv v o = some true

/-- The result `r` of `op` says that `op` put `v` into the map for `k`. -/
def Op.Put (k : K) (op : Op K V) (r : Res K V) (v : V) : Prop :=
  (op = .swap k v ∧ ∃ p, r = .opt p) ∨ (op = .loadOrStore k v ∧ r = .los v false) ∨
  ∃ o, op = .compareAndSwap k o v ∧ r = .bool true

/-- The result `r` of `op` says that `op` has seen the value `v` for `k` and left it in the map. -/
def Op.Saw (k : K) (op : Op K V) (r : Res K V) (v : V) : Prop :=
  (op = .load k ∧ r = .opt (some v)) ∨ ∃ n, op = .loadOrStore k n ∧ r = .los v true

/-- Every value that a call took out of the map (`Took`) or saw in it (`Saw`) was put in by a call, `src` of that call: the value is the one that call put in (it may still be
in progress); it was invoked before the call that got the value returned; what it put in is taken out by one call only, and is not seen by
calls that start when that call has returned. -/
def Ledger (eqv : V → V → Option Bool) (prog : Nat → Op K V) (h : List (Ev K V)) (src : Nat → Nat) : Prop :=
  ∀ k i r v, Ev.ret i r ∈ h → (prog i).Took eqv k r v ∨ (prog i).Saw k r v →
    (∃ u, ((prog i).Took eqv k r u ∨ (prog i).Saw k r u) ∧ (prog (src i)).Stored k u ∧
      ∀ r', Ev.ret (src i) r' ∈ h → (prog (src i)).Put k r' u) ∧
    src i ≠ i ∧ (∀ h1 h2, h = h1 ++ .ret i r :: h2 → Ev.inv (src i) ∈ h1) ∧
    ∀ k' j r' v', Ev.ret j r' ∈ h → (prog j).Took eqv k' r' v' → src j = src i → j ≠ i →
      (prog i).Saw k r v ∧ ∀ h1 h2, h = h1 ++ .ret j r' :: h2 → Ev.inv i ∈ h1

/-! ## Order in a linearization -/

section
variable {L : List (LEv K V)} {h : List (Ev K V)}

theorem lin_ret_split (H : Linearizes eqv prog L h) {i : Nat} {r : Res K V} {h1 h2 : List (Ev K V)}
    (hh : h = h1 ++ .ret i r :: h2) :
    ∃ L1 L2, L = L1 ++ .ret i r :: L2 ∧ L1.filterMap LEv.ev? = h1 ∧ L2.filterMap LEv.ev? = h2 := by
  have h0 := H.1
  rw [hh, List.filterMap_eq_append_iff] at h0
  obtain ⟨A, B, rfl, hA, hB⟩ := h0
  rw [List.filterMap_eq_cons_iff] at hB
  obtain ⟨B1, x, B2, rfl, hn, hx, hB2⟩ := hB
  have hx' : x = .ret i r := by cases x <;> simp_all [LEv.ev?]
  subst hx'
  refine ⟨A ++ B1, B2, by simp, ?_, hB2⟩
  rw [List.filterMap_append, hA, (List.filterMap_eq_nil_iff.2 hn), List.append_nil]

theorem lin_inv_split (H : Linearizes eqv prog L h) {i : Nat} {h1 h2 : List (Ev K V)}
    (hh : h = h1 ++ .inv i :: h2) :
    ∃ L1 L2, L = L1 ++ .inv i :: L2 ∧ L1.filterMap LEv.ev? = h1 ∧ L2.filterMap LEv.ev? = h2 := by
  have h0 := H.1
  rw [hh, List.filterMap_eq_append_iff] at h0
  obtain ⟨A, B, rfl, hA, hB⟩ := h0
  rw [List.filterMap_eq_cons_iff] at hB
  obtain ⟨B1, x, B2, rfl, hn, hx, hB2⟩ := hB
  have hx' : x = .inv i := by cases x <;> simp_all [LEv.ev?]
  subst hx'
  refine ⟨A ++ B1, B2, by simp, ?_, hB2⟩
  rw [List.filterMap_append, hA, (List.filterMap_eq_nil_iff.2 hn), List.append_nil]

theorem mem_inv_fm {A : List (LEv K V)} {i : Nat} : Ev.inv i ∈ A.filterMap LEv.ev? ↔ .inv i ∈ A := by
  rw [List.mem_filterMap]
  constructor
  · rintro ⟨x, hx, hxe⟩; cases x <;> simp_all [LEv.ev?]
  · intro hi; exact ⟨_, hi, rfl⟩

theorem mem_ret_fm {A : List (LEv K V)} {i : Nat} {r : Res K V} : Ev.ret i r ∈ A.filterMap LEv.ev? ↔ .ret i r ∈ A := by
  rw [List.mem_filterMap]
  constructor
  · rintro ⟨x, hx, hxe⟩; cases x <;> simp_all [LEv.ev?]
  · intro hi; exact ⟨_, hi, rfl⟩

/-- A call takes effect before it returns, and returns only once. -/
theorem ret_once (H : Linearizes eqv prog L h) {i : Nat} (hm : (prog i).isMap = true) {r : Res K V}
    {M M' : List (LEv K V)} (hL : L = M ++ .ret i r :: M') :
    .inv i ∈ M ∧ .eff i ∈ M ∧ ∀ x ∈ M', x.call ≠ i := by
  have hs := (H.2 i hm).1
  rw [hL] at hs
  simp only [List.filter_append, List.filter_cons, LEv.call, beq_self_eq_true, if_true] at hs
  have key : ∀ {P Q : List (LEv K V)}, (P ++ .ret i r :: Q = [] ∨ P ++ .ret i r :: Q = [.inv i] ∨
      P ++ .ret i r :: Q = [.inv i, .eff i] ∨ ∃ r', P ++ .ret i r :: Q = [.inv i, .eff i, .ret i r']) →
      P = [.inv i, .eff i] ∧ Q = [] := by
    intro P Q hP
    match P, hP with
    | [], hP => simp at hP
    | [a], hP => simp at hP
    | [a, b], hP => simp at hP; simp [hP]
    | a :: b :: c :: P, hP => simp at hP
  obtain ⟨h1, h2⟩ := key hs
  refine ⟨?_, ?_, fun x hx hxi => ?_⟩
  · have : LEv.inv i ∈ M.filter (·.call == i) := by rw [show M.filter (·.call == i) = _ from h1]; simp
    exact (List.mem_filter.1 this).1
  · have : LEv.eff i ∈ M.filter (·.call == i) := by rw [show M.filter (·.call == i) = _ from h1]; simp
    exact (List.mem_filter.1 this).1
  · have : x ∈ M'.filter (·.call == i) := by simp [hx, hxi]
    rw [show M'.filter (·.call == i) = _ from h2] at this; simp at this

/-- A call is invoked before it takes effect, and only once. -/
theorem inv_once (H : Linearizes eqv prog L h) {i : Nat} (hm : (prog i).isMap = true)
    {M M' : List (LEv K V)} (hL : L = M ++ .inv i :: M') : ∀ x ∈ M, x.call ≠ i := by
  have hs := (H.2 i hm).1
  rw [hL] at hs
  simp only [List.filter_append, List.filter_cons, LEv.call, beq_self_eq_true, if_true] at hs
  have key : ∀ {P Q : List (LEv K V)}, (P ++ .inv i :: Q = [] ∨ P ++ .inv i :: Q = [.inv i] ∨
      P ++ .inv i :: Q = [.inv i, .eff i] ∨ ∃ r', P ++ .inv i :: Q = [.inv i, .eff i, .ret i r']) → P = [] := by
    intro P Q hP
    match P, hP with
    | [], hP => rfl
    | [a], hP => simp at hP
    | [a, b], hP => simp at hP
    | a :: b :: c :: P, hP => simp at hP
  intro x hx hxi
  have : x ∈ M.filter (·.call == i) := by simp [hx, hxi]
  rw [show M.filter (·.call == i) = _ from key hs] at this; simp at this

/-! ## Only `LoadOrStore` writes, from some instant on -/

/-- Once there is a value, it stays. -/
theorem los_stay {k : K} {v : V} : ∀ {Q : List (LEv K V)} {A : AMap K V}, A k = some v →
    (∀ i, .eff i ∈ Q → (prog i).writes k = true → ∃ u, prog i = .loadOrStore k u) →
    effects eqv prog Q A k = some v
  | [], _, hA, _ => hA
  | .inv _ :: Q, A, hA, ho => los_stay (Q := Q) (A := A) hA fun i hi => ho i (.tail _ hi)
  | .ret _ _ :: Q, A, hA, ho => los_stay (Q := Q) (A := A) hA fun i hi => ho i (.tail _ hi)
  | .visit _ _ _ :: Q, A, hA, ho => los_stay (Q := Q) (A := A) hA fun i hi => ho i (.tail _ hi)
  | .eff j :: Q, A, hA, ho => by
    refine los_stay (Q := Q) (A := (apply eqv (prog j) A).1) ?_ fun i hi => ho i (.tail _ hi)
    by_cases hw : (prog j).writes k = true
    · obtain ⟨u, hu⟩ := ho j (.head _) hw
      rw [hu]; simp only [apply, hA]
    · rw [apply_other (by simpa using hw)]; exact hA

/-- If nothing writes, nothing changes. -/
theorem none_stay {k : K} : ∀ {Q : List (LEv K V)} {A : AMap K V},
    (∀ i, .eff i ∈ Q → (prog i).writes k = false) → effects eqv prog Q A k = A k
  | [], _, _ => rfl
  | .inv _ :: Q, A, ho => none_stay (Q := Q) (A := A) fun i hi => ho i (.tail _ hi)
  | .ret _ _ :: Q, A, ho => none_stay (Q := Q) (A := A) fun i hi => ho i (.tail _ hi)
  | .visit _ _ _ :: Q, A, ho => none_stay (Q := Q) (A := A) fun i hi => ho i (.tail _ hi)
  | .eff j :: Q, A, ho => by
    rw [show effects eqv prog (.eff j :: Q) A = effects eqv prog Q (apply eqv (prog j) A).1 from rfl,
      none_stay (Q := Q) fun i hi => ho i (.tail _ hi), apply_other (ho j (.head _))]

/-- The first effect that writes `k`, if there is one. -/
theorem first_writer (k : K) : ∀ Q : List (LEv K V), (∀ i, .eff i ∈ Q → (prog i).writes k = false) ∨
    ∃ M w M', Q = M ++ .eff w :: M' ∧ (prog w).writes k = true ∧ ∀ i, .eff i ∈ M → (prog i).writes k = false
  | [] => .inl (by simp)
  | x :: Q => by
    have IH := first_writer k Q
    by_cases hx : ∃ j, x = .eff j ∧ (prog j).writes k = true
    · obtain ⟨j, rfl, hj⟩ := hx
      exact .inr ⟨[], j, Q, rfl, hj, by simp⟩
    · have hx' : ∀ i, x = .eff i → (prog i).writes k = false := fun i hi => by
        simpa using fun hw => hx ⟨i, hi, hw⟩
      rcases IH with IH | ⟨M, w, M', rfl, hw, hM⟩
      · refine .inl fun i hi => ?_
        rcases List.mem_cons.1 hi with hi | hi
        · exact hx' i hi.symm
        · exact IH i hi
      · refine .inr ⟨x :: M, w, M', rfl, hw, fun i hi => ?_⟩
        rcases List.mem_cons.1 hi with hi | hi
        · exact hx' i hi.symm
        · exact hM i hi

/-- One winner, from an instant on at which `k` is missing. -/
theorem los_from (H : Linearizes eqv prog L h) {k : K} {P Q : List (LEv K V)} (hL : L = P ++ Q)
    (hP : effects eqv prog P AMap.empty k = none)
    (honly : ∀ i, .eff i ∈ Q → (prog i).writes k = true → ∃ v, prog i = .loadOrStore k v)
    {i0 : Nat} {v0 : V} (h0 : prog i0 = .loadOrStore k v0) (he0 : .eff i0 ∈ Q) :
    ∃ w v, prog w = .loadOrStore k v ∧ .eff w ∈ Q ∧ ∀ i vi r, prog i = .loadOrStore k vi →
      .eff i ∈ Q → Ev.ret i r ∈ h → r = .los v (i ≠ w) := by
  rcases first_writer (prog := prog) k Q with hno | ⟨M, w, M', rfl, hw, hM⟩
  · have := hno i0 he0
    rw [h0] at this; simp [Op.writes, Op.stores] at this
  obtain ⟨v, hv⟩ := honly w (by simp) hw
  have hPM : effects eqv prog (P ++ M) AMap.empty k = none := by
    rw [effects_append, none_stay hM]; exact hP
  refine ⟨w, v, hv, by simp, fun i vi r hi hei hr => ?_⟩
  have hmi : (prog i).isMap = true := by rw [hi]; rfl
  obtain ⟨N, N', hN, hres⟩ := ret_eff H hmi hr
  have hone := eff_once H hmi hN
  rw [hres, resultOn]
  by_cases hiw : i = w
  · subst hiw
    have hone' := eff_once H hmi (M := P ++ M) (M' := M') (by rw [hL]; simp)
    have hNM : N = P ++ M := by
      have hh : N ++ .eff i :: N' = (P ++ M) ++ .eff i :: M' := by rw [← hN, hL]; simp
      rcases List.append_eq_append_iff.1 hh with ⟨a, ha, hb⟩ | ⟨a, ha, hb⟩
      · cases a with
        | nil => simpa using ha.symm
        | cons x a => simp at hb; rw [← hb.1] at ha; exact absurd (by rw [ha]; simp) hone'.2.1
      · cases a with
        | nil => simpa using ha
        | cons x a => simp at hb; rw [← hb.1] at ha; exact absurd (by rw [ha]; simp) hone.2.1
    rw [hi] at hv; simp at hv; subst hv
    rw [hNM, hi]
    simp [apply, hPM]
  · have hei' : .eff i ∈ M' := by
      simp only [List.mem_append, List.mem_cons, LEv.eff.injEq, hiw, false_or] at hei
      rcases hei with hei | hei
      · have := hM i hei
        rw [hi] at this; simp [Op.writes, Op.stores] at this
      · exact hei
    obtain ⟨X, X', rfl⟩ := List.append_of_mem hei'
    have hNM : N = P ++ (M ++ .eff w :: X) := by
      have hh : N ++ .eff i :: N' = (P ++ (M ++ .eff w :: X)) ++ .eff i :: X' := by rw [← hN, hL]; simp
      have hone' := eff_once H hmi (M := P ++ (M ++ .eff w :: X)) (M' := X') (by rw [hL]; simp)
      rcases List.append_eq_append_iff.1 hh with ⟨a, ha, hb⟩ | ⟨a, ha, hb⟩
      · cases a with
        | nil => simpa using ha.symm
        | cons x a => simp at hb; rw [← hb.1] at ha; exact absurd (by rw [ha]; simp) hone'.2.1
      · cases a with
        | nil => simpa using ha
        | cons x a => simp at hb; rw [← hb.1] at ha; exact absurd (by rw [ha]; simp) hone.2.1
    have hst : effects eqv prog N AMap.empty k = some v := by
      rw [hNM, ← List.append_assoc, effects_append]
      refine los_stay (Q := X) (A := (apply eqv (prog w) (effects eqv prog (P ++ M) AMap.empty)).1) ?_ ?_
      · rw [hv]; simp [apply, hPM, AMap.set]
      · intro j hj; exact honly j (by simp [hj])
    rw [hi]
    simp [apply, hst, hiw]

/-- One winner, from the return of a call on that says that `k` is missing. -/
theorem los_since (H : Linearizes eqv prog L h) {k : K} {d : Nat} {rd : Res K V} {h0 h1 h2 : List (Ev K V)}
    (hh : h = h0 ++ .inv d :: (h1 ++ .ret d rd :: h2)) (hab : (prog d).Absent k rd)
    (hbefore : ∀ i, Ev.inv i ∈ h0 ++ h1 → (prog i).writes k = true → ∃ r, Ev.ret i r ∈ h0)
    (hafter : ∀ i, Ev.inv i ∈ h2 → (prog i).writes k = true → ∃ v, prog i = .loadOrStore k v)
    {i0 : Nat} {v0 : V} {r0 : Res K V} (hi0 : prog i0 = .loadOrStore k v0) (hr0 : Ev.ret i0 r0 ∈ h2) :
    ∃ w v, prog w = .loadOrStore k v ∧ Ev.inv w ∈ h2 ∧ ∀ i vi r, prog i = .loadOrStore k vi →
      Ev.ret i r ∈ h2 → r = .los v (i ≠ w) := by
  have hmd : (prog d).isMap = true := by
    rcases hab with ⟨h, _⟩ | h | ⟨o, h, _⟩ | h <;> rw [h] <;> rfl
  obtain ⟨A, B, rfl, hA, hB⟩ := lin_ret_split (i := d) (r := rd) (h1 := h0 ++ .inv d :: h1) (h2 := h2) H (by rw [hh]; simp)
  obtain ⟨_, hed, _⟩ := ret_once H hmd rfl
  obtain ⟨P, Q, rfl⟩ := List.append_of_mem hed
  -- where the invocation of `d` is
  have hinvP : ∃ P1 P2, P = P1 ++ .inv d :: P2 ∧ P1.filterMap LEv.ev? = h0 := by
    obtain ⟨I1, I2, hI, hI1, -⟩ := lin_inv_split H hh
    have hno := inv_once H hmd hI
    rw [List.append_assoc, List.cons_append] at hI
    rcases List.append_eq_append_iff.1 hI with ⟨a, ha, hb⟩ | ⟨a, ha, hb⟩
    · cases a with
      | nil => simp at hb
      | cons x a =>
        simp at hb
        rw [← hb.1] at ha
        exact absurd rfl (hno (.eff d) (by rw [ha]; simp))
    · cases a with
      | nil => simp at hb
      | cons x a => simp at hb; exact ⟨I1, a, by rw [ha, ← hb.1], hI1⟩
  obtain ⟨P1, P2, hP, hP1⟩ := hinvP
  -- calls invoked before the return of `d` that write `k` are over when `d` takes effect
  have hold : ∀ i, .inv i ∈ P ++ .eff d :: Q → i ≠ d → (prog i).writes k = true → .eff i ∈ P ∧ ∃ r, .ret i r ∈ P := by
    intro i hi hid hw
    have hi' : Ev.inv i ∈ h0 ++ .inv d :: h1 := by rw [← hA]; exact mem_inv_fm.2 hi
    have hi'' : Ev.inv i ∈ h0 ++ h1 := by simpa [hid] using hi'
    obtain ⟨r, hr⟩ := hbefore i hi'' hw
    rw [← hP1] at hr
    have hrP := mem_ret_fm.1 hr
    obtain ⟨X, Y, hX⟩ := List.append_of_mem hrP
    have := ret_once H (isMap_of_writes hw) (M := X) (r := r)
      (M' := Y ++ .inv d :: (P2 ++ .eff d :: Q ++ .ret d rd :: B)) (by rw [hP, hX]; simp)
    refine ⟨?_, r, ?_⟩
    · rw [hP, hX]; simp [this.2.1]
    · rw [hP]; simp [hrP]
  -- `k` is missing when `d` has taken effect
  have hrd : rd = resultOn eqv prog d (effects eqv prog P AMap.empty) :=
    (H.2 d hmd).2 P (Q ++ .ret d rd :: B) rd (by simp) (by simp)
  have hnone : effects eqv prog (P ++ [.eff d]) AMap.empty k = none := by
    rw [eff_snoc]
    rw [resultOn] at hrd
    rcases hab with ⟨h, hr⟩ | h | ⟨o, h, hr⟩ | h
    · rw [h] at hrd ⊢
      simp only [apply] at hrd ⊢
      rw [hr] at hrd; simpa using hrd.symm
    · rw [h]; simp [apply, AMap.set]
    · rw [h] at hrd ⊢
      simp only [apply] at hrd ⊢
      revert hrd
      rw [hr]
      repeat' split
      all_goals simp_all [AMap.set]
    · rw [h]; rfl
  have heffd := eff_once H hmd (M := P) (M' := Q ++ .ret d rd :: B) (by simp)
  -- after that, only `LoadOrStore` calls invoked later write `k`
  have hlate : ∀ i, .eff i ∈ Q ++ .ret d rd :: B → (prog i).writes k = true → .inv i ∈ B := by
    intro i hi hw
    have hm := isMap_of_writes hw
    have hid : i ≠ d := by rintro rfl; exact heffd.2.2 hi
    obtain ⟨X, Y, hX⟩ := List.append_of_mem hi
    have hone := eff_once H hm (M := P ++ .eff d :: X) (M' := Y) (by
      rw [List.append_assoc, List.append_assoc, List.cons_append, List.cons_append, hX])
    have hinv : .inv i ∈ P ++ .eff d :: Q ++ .ret d rd :: B := by
      have : .inv i ∈ P ++ .eff d :: (Q ++ .ret d rd :: B) := by
        rw [hX]
        rcases List.mem_append.1 hone.1 with h | h
        · simp [h]
        · simp at h; simp [h]
      simpa using this
    rcases List.mem_append.1 hinv with hp | hb
    · have := (hold i hp hid hw).1
      exact absurd (by simp [this]) hone.2.1
    · simpa using hb
  have honly : ∀ i, .eff i ∈ Q ++ .ret d rd :: B → (prog i).writes k = true → ∃ v, prog i = .loadOrStore k v :=
    fun i hi hw => hafter i (by rw [← hB]; exact mem_inv_fm.2 (hlate i hi hw)) hw
  -- calls that return after `d` has returned take effect after `d`
  have hret : ∀ i vi r, prog i = .loadOrStore k vi → Ev.ret i r ∈ h2 → .eff i ∈ Q ++ .ret d rd :: B := by
    intro i vi r hi hr
    have hw : (prog i).writes k = true := by rw [hi]; simp [Op.writes, Op.stores]
    have hm := isMap_of_writes hw
    rw [← hB] at hr
    obtain ⟨X, Y, hX⟩ := List.append_of_mem (mem_ret_fm.1 hr)
    have hone := ret_once H hm (M := P ++ .eff d :: Q ++ .ret d rd :: X) (r := r) (M' := Y) (by rw [hX]; simp)
    have hid : i ≠ d := by
      rintro rfl
      rcases hab with ⟨h, _⟩ | h | ⟨o, h, _⟩ | h <;> rw [h] at hi <;> cases hi
    by_cases hp : .inv i ∈ P ++ .eff d :: Q
    · obtain ⟨r', hr'⟩ := (hold i hp hid hw).2
      obtain ⟨U, W, hU⟩ := List.append_of_mem hr'
      have := (ret_once H hm (M := U) (r := r') (M' := W ++ .eff d :: Q ++ .ret d rd :: B) (by rw [hU]; simp)).2.2
      exact absurd rfl (this (.ret i r) (by rw [hX]; simp))
    · have h1 : .eff i ∈ P ++ .eff d :: (Q ++ .ret d rd :: B) := by
        rw [hX]
        rcases List.mem_append.1 hone.2.1 with h | h
        · rcases List.mem_append.1 h with h | h
          · simp [h]
          · simp [hid] at h; simp [h]
        · simp at h; simp [h]
      rcases List.mem_append.1 h1 with h | h
      · obtain ⟨U, W, hU⟩ := List.append_of_mem h
        have := eff_once H hm (M := U) (M' := W ++ .eff d :: Q ++ .ret d rd :: B) (by rw [hU]; simp)
        exact absurd (by rw [hU]; simp [this.1]) hp
      · simpa [hid] using h
  obtain ⟨w, v, hw, hew, hall⟩ := los_from H (P := P ++ [.eff d]) (Q := Q ++ .ret d rd :: B) (by simp) hnone honly hi0
    (hret i0 v0 r0 hi0 hr0)
  refine ⟨w, v, hw, ?_, fun i vi r hi hr => hall i vi r hi (hret i vi r hi hr) ?_⟩
  · rw [← hB]
    exact mem_inv_fm.2 (hlate w hew (by rw [hw]; simp [Op.writes, Op.stores]))
  · rw [hh]; simp [hr]
end

/-! ## Who put in the value the map has -/

/-- The value `op` puts in for `k` if the map is `A`. -/
def putAt (eqv : V → V → Option Bool) (k : K) (op : Op K V) (A : AMap K V) : Option V :=
  match op with
  | .swap k' v => if k' = k then some v else none
  | .loadOrStore k' v => if k' = k ∧ (A k).isNone then some v else none
  | .compareAndSwap k' o n => if k' = k ∧ ∃ w, A k = some w ∧ eqv w o = some true then some n else none
  | _ => none

theorem putAt_some {k : K} {op : Op K V} {A : AMap K V} {v : V} (h : putAt eqv k op A = some v) :
    (apply eqv op A).1 k = some v ∧ op.Put k (apply eqv op A).2 v ∧ op.Stored k v := by
  cases op <;> simp only [putAt, Option.ite_none_right_eq_some, Option.some.injEq, reduceCtorEq] at h
  · obtain ⟨rfl, rfl⟩ := h
    simp [apply, AMap.set, Op.Put, Op.Stored]
  · obtain ⟨⟨rfl, hn⟩, rfl⟩ := h
    rw [Option.isNone_iff_eq_none] at hn
    simp [apply, AMap.set, Op.Put, Op.Stored, hn]
  · obtain ⟨⟨rfl, w, hw, hq⟩, rfl⟩ := h
    simp [apply, AMap.set, Op.Put, Op.Stored, hw, hq]

theorem putAt_none {k : K} {op : Op K V} {A : AMap K V} (h : putAt eqv k op A = none) :
    (apply eqv op A).1 k = none ∨ (apply eqv op A).1 k = A k := by
  cases op <;> simp only [putAt, ite_eq_right_iff, reduceCtorEq, imp_false] at h <;> simp only [apply]
  case loadOrStore k' v =>
    split
    · exact .inr rfl
    next hn =>
      right
      have : ¬ k = k' := by rintro rfl; exact h ⟨rfl, by simp [hn]⟩
      simp [AMap.set, this]
  case compareAndSwap k' o n =>
    split
    next w hw =>
      split
      next hq =>
        right
        have : ¬ k = k' := by rintro rfl; exact h ⟨rfl, w, hw, hq⟩
        simp [AMap.set, this]
      · exact .inr rfl
      · exact .inr rfl
    · exact .inr rfl
  case swap k' v => right; simp [AMap.set, Ne.symm h]
  case loadAndDelete k' => by_cases hk : k = k' <;> simp [AMap.set, hk]
  case compareAndDelete k' o =>
    repeat' split
    all_goals first | exact .inr rfl | (by_cases hk : k = k' <;> simp [AMap.set, hk])
  all_goals simp [AMap.empty]

/-- Who put in the value for `k`, and the value, after call `i` took effect on `A`. -/
def ownStep (eqv : V → V → Option Bool) (prog : Nat → Op K V) (k : K) (i : Nat) (A : AMap K V) (o : Option (Nat × V)) : Option (Nat × V) :=
  match putAt eqv k (prog i) A with
  | some v => some (i, v)
  | none => if ((apply eqv (prog i) A).1 k).isNone then none else o

/-- Who put in the value for `k`, and the value, after the effects in `L`. -/
def own (eqv : V → V → Option Bool) (prog : Nat → Op K V) (k : K) : List (LEv K V) → AMap K V → Option (Nat × V) → Option (Nat × V)
  | [], _, o => o
  | .eff i :: L, A, o => own eqv prog k L (apply eqv (prog i) A).1 (ownStep eqv prog k i A o)
  | _ :: L, A, o => own eqv prog k L A o

theorem own_append (k : K) (L M : List (LEv K V)) (A : AMap K V) (o : Option (Nat × V)) :
    own eqv prog k (L ++ M) A o = own eqv prog k M (effects eqv prog L A) (own eqv prog k L A o) := by
  induction L generalizing A o with
  | nil => rfl
  | cons x L ih => cases x <;> exact ih _ _

/-- The owner is the old one, or a call that took effect. -/
theorem own_mem (k : K) (w : Nat) (v : V) : ∀ (L : List (LEv K V)) (A : AMap K V) (o : Option (Nat × V)),
    own eqv prog k L A o = some (w, v) → o = some (w, v) ∨ .eff w ∈ L
  | [], _, _, h => .inl h
  | .inv _ :: L, A, o, h => (own_mem k w v L A o h).imp_right (.tail _)
  | .ret _ _ :: L, A, o, h => (own_mem k w v L A o h).imp_right (.tail _)
  | .visit _ _ _ :: L, A, o, h => (own_mem k w v L A o h).imp_right (.tail _)
  | .eff i :: L, A, o, h => by
    rcases own_mem k w v L _ _ h with h | h
    · unfold ownStep at h
      split at h
      · simp at h; exact .inr (by simp [h.1])
      · split at h
        · cases h
        · exact .inl h
    · exact .inr (.tail _ h)

/-- The owner, its value, and that it really put it in. -/
theorem own_spec (k : K) (L : List (LEv K V)) :
    effects eqv prog L AMap.empty k = (own eqv prog k L AMap.empty none).map Prod.snd ∧
    ∀ w v, own eqv prog k L AMap.empty none = some (w, v) →
      ∃ X Y, L = X ++ .eff w :: Y ∧ putAt eqv k (prog w) (effects eqv prog X AMap.empty) = some v := by
  induction L using List.reverseRecOn with
  | nil => exact ⟨rfl, fun w v h => by cases h⟩
  | append_singleton L x ih =>
    rw [effects_append, own_append]
    cases x with
    | eff i =>
      simp only [effects, own, ownStep]
      cases hp : putAt eqv k (prog i) (effects eqv prog L AMap.empty) with
      | some v =>
        refine ⟨(putAt_some hp).1, fun w u h => ?_⟩
        simp at h
        exact ⟨L, [], by rw [h.1], by rw [← h.1, ← h.2]; exact hp⟩
      | none =>
        simp only
        rcases putAt_none hp with hn | hn
        · simp [hn]
        · rw [hn, ih.1]
          cases ho : own eqv prog k L AMap.empty none with
          | none => simp
          | some p =>
            refine ⟨by simp, fun w u h => ?_⟩
            simp at h
            obtain ⟨X, Y, hX, hq⟩ := ih.2 w u (by rw [ho, h])
            exact ⟨X, Y ++ [.eff i], by rw [hX]; simp, hq⟩
    | _ =>
      refine ⟨ih.1, fun w v h => ?_⟩
      obtain ⟨X, Y, hX, hq⟩ := ih.2 w v h
      exact ⟨X, Y ++ [_], by rw [hX, List.append_assoc]; rfl, hq⟩

/-- What the map had when a call took a value out. -/
theorem took_spec {k : K} {op : Op K V} {A : AMap K V} {v : V} (h : op.Took eqv k (apply eqv op A).2 v) :
    ∃ u, A k = some u ∧ op.Took eqv k (apply eqv op A).2 u ∧
      ((apply eqv op A).1 k = none ∨ ∃ n, putAt eqv k op A = some n) := by
  rcases h with ⟨rfl, h⟩ | ⟨n, rfl, h⟩ | ⟨o, rfl, h, _⟩ | ⟨o, n, rfl, h, _⟩
  · simp only [apply, Res.opt.injEq] at h ⊢
    exact ⟨v, h, by simp [Op.Took, h], .inl (by simp [AMap.set])⟩
  · simp only [apply, Res.opt.injEq] at h ⊢
    exact ⟨v, h, by simp [Op.Took, h], .inr ⟨n, by simp [putAt]⟩⟩
  · cases hA : A k with
    | none => simp [apply, hA] at h
    | some u =>
      cases hq : eqv u o with
      | none => simp [apply, hA, hq] at h
      | some b =>
        cases b with
        | false => simp [apply, hA, hq] at h
        | true => exact ⟨u, rfl, by simp [Op.Took, apply, hA, hq], .inl (by simp [apply, hA, hq, AMap.set])⟩
  · cases hA : A k with
    | none => simp [apply, hA] at h
    | some u =>
      cases hq : eqv u o with
      | none => simp [apply, hA, hq] at h
      | some b =>
        cases b with
        | false => simp [apply, hA, hq] at h
        | true => exact ⟨u, rfl, by simp [Op.Took, apply, hA, hq], .inr ⟨n, by simp [putAt, hA, hq]⟩⟩

theorem saw_spec {k : K} {op : Op K V} {A : AMap K V} {v : V} (h : op.Saw k (apply eqv op A).2 v) : A k = some v := by
  rcases h with ⟨rfl, h⟩ | ⟨n, rfl, h⟩
  · simpa [apply] using h
  · cases hA : A k with
    | none => simp [apply, hA] at h
    | some u => simpa [apply, hA] using h

omit [DecidableEq K] in
theorem Op.Took.key {k : K} {op : Op K V} {r : Res K V} {v : V} (h : op.Took eqv k r v) : op.key? = some k ∧ op.isMap = true := by
  rcases h with ⟨rfl, _⟩ | ⟨n, rfl, _⟩ | ⟨o, rfl, _, _⟩ | ⟨o, n, rfl, _, _⟩ <;> exact ⟨rfl, rfl⟩

omit [DecidableEq K] in
theorem Op.Saw.key {k : K} {op : Op K V} {r : Res K V} {v : V} (h : op.Saw k r v) : op.key? = some k ∧ op.isMap = true := by
  rcases h with ⟨rfl, _⟩ | ⟨n, rfl, _⟩ <;> exact ⟨rfl, rfl⟩

omit [DecidableEq K] in
theorem Op.Stored.key {k : K} {op : Op K V} {v : V} (h : op.Stored k v) : op.key? = some k ∧ op.isMap = true := by
  rcases h with rfl | rfl | ⟨o, rfl⟩ <;> exact ⟨rfl, rfl⟩

/-- `L` up to the effect of call `i`. -/
def upto (i : Nat) : List (LEv K V) → List (LEv K V)
  | [] => []
  | .eff j :: L => if j = i then [] else .eff j :: upto i L
  | x :: L => x :: upto i L

omit [DecidableEq K] in
theorem upto_eq {i : Nat} : ∀ {M : List (LEv K V)} (M' : List (LEv K V)), .eff i ∉ M → upto i (M ++ .eff i :: M') = M
  | [], _, _ => by simp [upto]
  | .inv _ :: M, M', h => congrArg _ (upto_eq (M := M) M' fun hm => h (.tail _ hm))
  | .ret _ _ :: M, M', h => congrArg _ (upto_eq (M := M) M' fun hm => h (.tail _ hm))
  | .visit _ _ _ :: M, M', h => congrArg _ (upto_eq (M := M) M' fun hm => h (.tail _ hm))
  | .eff j :: M, M', h => by
    have hj : j ≠ i := by rintro rfl; exact h (.head _)
    simp only [List.cons_append, upto, if_neg hj]
    exact congrArg _ (upto_eq M' fun hm => h (.tail _ hm))

/-- Whose value a call finds. -/
def srcOf (eqv : V → V → Option Bool) (prog : Nat → Op K V) (L : List (LEv K V)) (i : Nat) : Nat :=
  match (prog i).key? with
  | none => 0
  | some k => match own eqv prog k (upto i L) AMap.empty none with
    | some (w, _) => w
    | none => 0

section
variable {L : List (LEv K V)} {h : List (Ev K V)}

/-- A call that took or saw a value, at the instant it took effect. -/
theorem got_at (H : Linearizes eqv prog L h) {k : K} {i : Nat} {r : Res K V} {v : V} (hr : Ev.ret i r ∈ h)
    (hg : (prog i).Took eqv k r v ∨ (prog i).Saw k r v) :
    ∃ M M' u, L = M ++ .eff i :: M' ∧ .eff i ∉ M ∧ own eqv prog k M AMap.empty none = some (srcOf eqv prog L i, u) ∧
      ((prog i).Took eqv k r u ∨ (prog i).Saw k r u) ∧
      ((prog i).Took eqv k r v → ∀ w u', own eqv prog k (M ++ [.eff i]) AMap.empty none = some (w, u') → w = i) := by
  have hk : (prog i).key? = some k ∧ (prog i).isMap = true := hg.elim Op.Took.key Op.Saw.key
  obtain ⟨M, M', hL, hres⟩ := ret_eff H hk.2 hr
  have hone := eff_once H hk.2 hL
  have hval : ∃ u, effects eqv prog M AMap.empty k = some u ∧ ((prog i).Took eqv k r u ∨ (prog i).Saw k r u) := by
    rw [hres, resultOn] at hg ⊢
    rcases hg with hg | hg
    · obtain ⟨u, h1, h2, _⟩ := took_spec hg
      exact ⟨u, h1, .inl h2⟩
    · exact ⟨v, saw_spec hg, .inr hg⟩
  obtain ⟨u, hu, hgu⟩ := hval
  have hs := own_spec (eqv := eqv) (prog := prog) k M
  rw [hu] at hs
  cases ho : own eqv prog k M AMap.empty none with
  | none => rw [ho] at hs; simp at hs
  | some p =>
    obtain ⟨w, u'⟩ := p
    rw [ho] at hs
    simp at hs
    obtain ⟨rfl, hs⟩ := hs
    refine ⟨M, M', u, hL, hone.2.1, ?_, hgu, ?_⟩
    · rw [srcOf, hk.1]
      simp only
      rw [hL, upto_eq M' hone.2.1, ho]
    · intro ht w' u' hw'
      rw [hres, resultOn] at ht
      obtain ⟨_, _, _, h3⟩ := took_spec ht
      rw [own_append] at hw'
      simp only [own, ownStep] at hw'
      rcases h3 with h3 | ⟨n, h3⟩
      · cases hp : putAt eqv k (prog i) (effects eqv prog M AMap.empty) with
        | some v' => rw [(putAt_some hp).1] at h3; cases h3
        | none => simp [hp, h3] at hw'
      · simp [h3] at hw'; exact hw'.1.symm

/-- Nothing that a call took out is found later. -/
theorem src_ne (H : Linearizes eqv prog L h) {k : K} {i j : Nat} {r r' : Res K V} {v v' : V}
    (hr : Ev.ret i r ∈ h) (hg : (prog i).Took eqv k r v ∨ (prog i).Saw k r v)
    (hr' : Ev.ret j r' ∈ h) (ht : (prog j).Took eqv k r' v')
    {X Y Z : List (LEv K V)} (hL : L = X ++ .eff j :: Y ++ .eff i :: Z) :
    srcOf eqv prog L j ≠ srcOf eqv prog L i := by
  obtain ⟨M, M', u, hM, hne, ho, _, _⟩ := got_at H hr hg
  obtain ⟨N, N', u', hN, hne', ho', _, hlast⟩ := got_at H hr' (.inl ht)
  have hone := eff_once H (hg.elim Op.Took.key Op.Saw.key).2 hL
  have hMe : M = X ++ .eff j :: Y := by rw [← upto_eq (i := i) M' hne, ← hM, hL, upto_eq Z hone.2.1]
  have hone' := eff_once H ht.key.2 (M := X) (M' := Y ++ .eff i :: Z) (by rw [hL]; simp)
  have hNe : N = X := by rw [← upto_eq (i := j) N' hne', ← hN, hL, List.append_assoc, List.cons_append, upto_eq _ hone'.2.1]
  intro he
  -- the source of `j` took effect before `j`
  obtain ⟨P, Q, hP, hput⟩ := (own_spec k N).2 _ _ ho'
  have hmw := (putAt_some hput).2.2.key.2
  rw [hMe, show X ++ .eff j :: Y = (X ++ [.eff j]) ++ Y by simp, own_append] at ho
  have hmem : .eff (srcOf eqv prog L i) ∈ .eff j :: Y := by
    rcases own_mem k _ _ Y _ _ ho with h1 | h1
    · rw [hNe] at hlast
      rw [hlast ht _ _ h1]; exact .head _
    · exact .tail _ h1
  have hw := eff_once H hmw (M := P) (M' := Q ++ .eff j :: (Y ++ .eff i :: Z)) (hL.trans (by
    rw [← hNe, hP]; simp))
  refine hw.2.2 ?_
  rw [he]
  rcases List.mem_cons.1 hmem with h1 | h1
  · rw [h1]; simp
  · simp [h1]

theorem ledger (H : Linearizes eqv prog L h) : Ledger eqv prog h (srcOf eqv prog L) := by
  intro k i r v hr hg
  obtain ⟨M, M', u, hM, hne, ho, hgu, hlast⟩ := got_at H hr hg
  obtain ⟨P, Q, hP, hput⟩ := (own_spec k M).2 _ _ ho
  have hst := (putAt_some hput).2.2
  have hmw := hst.key.2
  have hmi : (prog i).isMap = true := (hg.elim Op.Took.key Op.Saw.key).2
  have hLL : L = P ++ .eff (srcOf eqv prog L i) :: (Q ++ .eff i :: M') := hM.trans (by rw [hP]; simp)
  have honew := eff_once H hmw hLL
  refine ⟨⟨u, hgu, hst, fun r' hr' => ?_⟩, ?_, ?_, ?_⟩
  · obtain ⟨N, N', hN, hres⟩ := ret_eff H hmw hr'
    have honeN := eff_once H hmw hN
    have : N = P := by
      have e := congrArg (upto (srcOf eqv prog L i)) (hN.symm.trans hLL)
      rwa [upto_eq _ honeN.2.1, upto_eq _ honew.2.1] at e
    rw [hres, this]
    exact (putAt_some hput).2.1
  · intro he
    rw [he] at hP
    exact hne (by rw [hP]; simp)
  · intro h1 h2 hh
    obtain ⟨L1, L2, hL, hL1, _⟩ := lin_ret_split H hh
    have hone := ret_once H hmi hL
    obtain ⟨A, B, hA⟩ := List.append_of_mem hone.2.1
    have hAn := (eff_once H hmi (M := A) (M' := B ++ .ret i r :: L2) (by rw [hL, hA]; simp)).2.1
    have hMA : M = A := by
      rw [← upto_eq (i := i) M' hne, ← hM, hL, hA, List.append_assoc, List.cons_append, upto_eq _ hAn]
    rw [← hL1, mem_inv_fm, hA, ← hMA, hP]
    simp [honew.1]
  · intro k' j r' v' hr' ht he hji
    -- the same key
    obtain ⟨N, N', u', hN, hne', ho', _, _⟩ := got_at H hr' (.inl ht)
    obtain ⟨P', Q', hP', hput'⟩ := (own_spec k' N).2 _ _ ho'
    have hkk : k' = k := by
      have a := (putAt_some hput').2.2.key.1
      rw [he, hst.key.1] at a
      simpa using a.symm
    subst hkk
    -- `j` took effect before `i`, or after
    have hord : (∃ X Y Z, L = X ++ .eff j :: Y ++ .eff i :: Z) ∨ ∃ X Y Z, L = X ++ .eff i :: Y ++ .eff j :: Z := by
      have hj : .eff j ∈ M ++ .eff i :: M' := by rw [← hM, hN]; simp
      rcases List.mem_append.1 hj with hj | hj
      · obtain ⟨X, Y, hX⟩ := List.append_of_mem hj
        exact .inl ⟨X, Y, M', by rw [hM, hX]⟩
      · simp only [List.mem_cons, LEv.eff.injEq, hji, false_or] at hj
        obtain ⟨Y, Z, hY⟩ := List.append_of_mem hj
        exact .inr ⟨M, Y, Z, by rw [hM, hY]; simp⟩
    rcases hord with ⟨X, Y, Z, hX⟩ | ⟨X, Y, Z, hX⟩
    · exact absurd he (src_ne H hr hg hr' ht hX)
    · have hsaw : (prog i).Saw k' r v := by
        rcases hg with hg | hg
        · exact absurd he.symm (src_ne H hr' (.inl ht) hr hg hX)
        · exact hg
      refine ⟨hsaw, fun h1 h2 hh => ?_⟩
      obtain ⟨L1, L2, hL, hL1, _⟩ := lin_ret_split H hh
      have hone := ret_once H ht.key.2 hL
      have honei := eff_once H hmi (M := X) (M' := Y ++ .eff j :: Z) (by rw [hX]; simp)
      obtain ⟨A, B, hA⟩ := List.append_of_mem hone.2.1
      have hAn := (eff_once H ht.key.2 (M := A) (M' := B ++ .ret j r' :: L2) (by rw [hL, hA]; simp)).2.1
      have hXn := (eff_once H ht.key.2 (M := X ++ .eff i :: Y) (M' := Z) hX).2.1
      have hXA : X ++ .eff i :: Y = A := by
        rw [← upto_eq (i := j) Z hXn, ← hX, hL, hA, List.append_assoc, List.cons_append, upto_eq _ hAn]
      rw [← hL1, mem_inv_fm, hA, ← hXA]
      simp [honei.1]
end

/-! ## RWMap -/

variable [Inhabited V] {h : List (Ev K V)} {s : State K V}

/-- C05, for a key that has been in use: call `d` finds that `k` is missing, or removes it; all calls before that may write `k`
return before `d` starts, and after `d` has returned only `LoadOrStore` calls write `k`.  Then of those there is one winner. -/
theorem rwmap_loadOrStore_once_since (hx : Exec eqv prog h s) {k : K} {d : Nat} {rd : Res K V} {h0 h1 h2 : List (Ev K V)}
    (hh : h = h0 ++ .inv d :: (h1 ++ .ret d rd :: h2)) (hab : (prog d).Absent k rd)
    (hbefore : ∀ i, Ev.inv i ∈ h0 ++ h1 → (prog i).writes k = true → ∃ r, Ev.ret i r ∈ h0)
    (hafter : ∀ i, Ev.inv i ∈ h2 → (prog i).writes k = true → ∃ v, prog i = .loadOrStore k v)
    {i0 : Nat} {v0 : V} {r0 : Res K V} (hi0 : prog i0 = .loadOrStore k v0) (hr0 : Ev.ret i0 r0 ∈ h2) :
    ∃ w v, prog w = .loadOrStore k v ∧ Ev.inv w ∈ h2 ∧ ∀ i vi r, prog i = .loadOrStore k vi →
      Ev.ret i r ∈ h2 → r = .los v (i ≠ w) := by
  obtain ⟨L, H⟩ := rwmap_linearizable hx
  exact los_since H hh hab hbefore hafter hi0 hr0

/-- Key 7 is stored and deleted; then calls 3 and 4 race, and call 3 wins. -/
def sinceProg : Nat → Op Nat Nat
  | 0 => .swap 7 1
  | 1 => .swap 8 2
  | 2 => .loadAndDelete 7
  | 3 => .loadOrStore 7 3
  | 4 => .loadOrStore 7 4
  | _ => .len

example : ∃ s, Exec (fun a b => some (a == b)) sinceProg
    ([.inv 0, .ret 0 (.opt none), .inv 1, .ret 1 (.opt none)] ++ .inv 2 :: ([] ++ .ret 2 (.opt (some 1)) ::
      [.inv 3, .inv 4, .ret 3 (.los 3 false), .ret 4 (.los 3 true)])) s :=
  historyOf_exec (is := rep 10 0 ++ rep 7 1 ++ rep 10 2 ++ rep 2 3 ++ rep 2 4 ++ rep 9 3 ++ rep 5 4) rfl

/-- C129: every value that comes out of the map was put in, and is taken out once. -/
theorem rwmap_ledger (hx : Exec eqv prog h s) : ∃ src, Ledger eqv prog h src := by
  obtain ⟨L, H⟩ := rwmap_linearizable hx
  exact ⟨_, ledger H⟩

/-- In `exHist` of Props.lean, call 2 took the value 1 out and call 1 saw it; both have it from call 0. -/
example : ∃ src, Ledger (fun a b => some (a == b)) exProg exHist src ∧ src 2 = 0 ∧ src 1 = 0 := by
  obtain ⟨s, hx⟩ : ∃ s, Exec (fun a b => some (a == b)) exProg exHist s :=
    historyOf_exec (is := rep 10 0 ++ rep 7 3 ++ rep 5 1 ++ rep 6 2 ++ rep 3 4 ++ rep 2 1 ++ rep 4 2) rfl
  obtain ⟨src, hl⟩ := rwmap_ledger hx
  have h2 := hl 7 2 (.opt (some 1)) 1 (by simp [exHist]) (.inl (.inl ⟨rfl, rfl⟩))
  have h1 := hl 7 1 (.opt (some 1)) 1 (by simp [exHist]) (.inr (.inl ⟨rfl, rfl⟩))
  have key : ∀ n, ((exProg n).key? = some 7 ∧ (∃ u, (exProg n).Stored 7 u)) → n = 0 := by
    rintro n ⟨hk, u, hu⟩
    match n with
    | 0 => rfl
    | 1 | 2 | 3 | 4 | 5 | 6 | 7 | 8 | 9 => simp [exProg, Op.Stored] at hu
    | n + 10 => simp [exProg, Op.Stored] at hu
  refine ⟨src, hl, key _ ?_, key _ ?_⟩
  · obtain ⟨⟨u, _, hu, _⟩, _⟩ := h2
    exact ⟨hu.key.1, u, hu⟩
  · obtain ⟨⟨u, _, hu, _⟩, _⟩ := h1
    exact ⟨hu.key.1, u, hu⟩
end Verif.RWMap
