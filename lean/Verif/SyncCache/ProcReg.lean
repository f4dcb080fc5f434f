import Verif.SyncCache.ProcInv
/-!
# Which caches the trimmer trims, over the steps of `RWMap` (C162)
-/
namespace Verif.SyncCache.Proc
open Verif.Refresh (get_snoc get_lt get_keep get_new)
open RWMap (effects LEv AMap)
variable {K V : Type}

/-! ## Positions -/

section
variable {α β : Type}

/-- The elements of `l` that `f` keeps are in `l`, in the same order. -/
theorem filterMap_up (f : α → Option β) (l : List α) :
    ∃ g : Nat → Nat, (∀ a b, a < b → b < (l.filterMap f).length → g a < g b) ∧ ∀ a y, (l.filterMap f)[a]? = some y → ∃ x, l[g a]? = some x ∧ f x = some y := by
  induction l with
  | nil => exact ⟨id, fun _ _ _ h => by simp at h, fun _ _ h => by simp at h⟩
  | cons x l ih =>
    obtain ⟨g, h1, h2⟩ := ih
    cases hx : f x with
    | none =>
      refine ⟨fun a => g a + 1, fun a b hab hb => ?_, fun a y ha => ?_⟩
      · rw [List.filterMap_cons_none hx] at hb
        exact Nat.succ_lt_succ (h1 a b hab hb)
      · rw [List.filterMap_cons_none hx] at ha
        simpa using h2 a y ha
    | some y =>
      refine ⟨fun a => match a with | 0 => 0 | a + 1 => g a + 1, fun a b hab hb => ?_, fun a y' ha => ?_⟩
      · rw [List.filterMap_cons_some hx] at hb
        cases b with
        | zero => omega
        | succ b =>
          cases a with
          | zero => exact Nat.succ_pos _
          | succ a => exact Nat.succ_lt_succ (h1 a b (by omega) (by simpa using hb))
      · rw [List.filterMap_cons_some hx] at ha
        cases a with
        | zero => simp at ha; subst ha; exact ⟨x, by simp, hx⟩
        | succ a => simpa using h2 a y' (by simpa using ha)

/-- Where the elements of `l` are among those that `f` keeps. -/
theorem filterMap_down (f : α → Option β) (l : List α) {a : Nat} {x : α} {y : β} (hx : l[a]? = some x) (hy : f x = some y) :
    (l.filterMap f)[((l.take a).filterMap f).length]? = some y := by
  obtain ⟨ha, rfl⟩ := List.getElem?_eq_some_iff.1 hx
  have : l.filterMap f = (l.take a).filterMap f ++ y :: (l.drop (a + 1)).filterMap f := by
    conv => lhs; rw [← List.take_append_drop a l, List.filterMap_append, ← List.cons_getElem_drop_succ (h := ha), List.filterMap_cons_some hy]
  rw [this]
  simp

theorem filterMap_down_lt (f : α → Option β) (l : List α) {a b : Nat} {x : α} {y : β} (hx : l[a]? = some x) (hy : f x = some y) (hab : a < b) :
    ((l.take a).filterMap f).length < ((l.take b).filterMap f).length := by
  obtain ⟨ha, rfl⟩ := List.getElem?_eq_some_iff.1 hx
  have h1 : l.take (a + 1) = l.take a ++ [l[a]] := (List.take_concat_get' l a ha).symm
  have h2 : l.take b = l.take (a + 1) ++ (l.take b).drop (a + 1) := by
    rw [show l.take (a + 1) = (l.take b).take (a + 1) by rw [List.take_take, Nat.min_eq_left hab]]
    exact (List.take_append_drop _ _).symm
  rw [h2, h1, List.filterMap_append, List.filterMap_append]
  simp [hy]
end

/-- The events of `caches` in its linearization, in the same order. -/
theorem place {G : List (GEv K V)} {L : List (LEv Nat Unit)} (hL : L.filterMap LEv.ev? = regs G) :
    ∃ f : Nat → Nat, (∀ (a : Nat) e, G[a]? = some (.reg e) → L[f a]? = some (toLev e)) ∧
      ∀ (a b : Nat) e e', G[a]? = some (.reg e) → G[b]? = some (.reg e') → a < b → f a < f b := by
  obtain ⟨g, h1, h2⟩ := filterMap_up LEv.ev? L
  rw [hL] at h1 h2
  refine ⟨fun a => g (regs (G.take a)).length, fun a e ha => ?_, fun a b e e' ha hb hab => ?_⟩
  · obtain ⟨x, h3, h4⟩ := h2 _ _ (filterMap_down GEv.reg? G ha rfl)
    rw [toLev_ev h4] at h3
    exact h3
  · exact h1 _ _ (filterMap_down_lt GEv.reg? G ha rfl hab) (get_lt (filterMap_down GEv.reg? G hb rfl))

section
variable {rprog : Nat → RWMap.Op Nat Unit} {L : List (LEv Nat Unit)} {a b n c i : Nat}

theorem get_split {α : Type} {l : List α} {a : Nat} {x : α} (h : l[a]? = some x) : l = l.take a ++ x :: l.drop (a + 1) := by
  obtain ⟨ha, rfl⟩ := List.getElem?_eq_some_iff.1 h
  rw [List.cons_getElem_drop_succ, List.take_append_drop]

theorem mem_take {α : Type} {l : List α} {a b : Nat} {x : α} (h : l[a]? = some x) (hab : a < b) : x ∈ l.take b := by
  rw [List.mem_iff_getElem?]
  exact ⟨a, by rw [List.getElem?_take_of_lt hab]; exact h⟩

theorem of_mem_take {α : Type} {l : List α} {b : Nat} {x : α} (h : x ∈ l.take b) : ∃ a : Nat, a < b ∧ l[a]? = some x := by
  obtain ⟨a, ha⟩ := List.mem_iff_getElem?.1 h
  have : a < b := by have := get_lt ha; simp at this; omega
  exact ⟨a, this, by rwa [List.getElem?_take_of_lt this] at ha⟩

theorem inv_uniq (W : RWMap.Whole uEq rprog L) (ha : L[a]? = some (.inv n)) (hb : L[b]? = some (.inv n)) : a = b := by
  rcases Nat.lt_trichotomy a b with h | h | h
  · exact absurd (mem_take ha h) (W.once _ _ _ (get_split hb))
  · exact h
  · exact absurd (mem_take hb h) (W.once _ _ _ (get_split ha))

theorem ret_uniq (W : RWMap.Whole uEq rprog L) {r r' : RWMap.Res Nat Unit} (ha : L[a]? = some (.ret n r)) (hb : L[b]? = some (.ret n r')) : a = b := by
  have : ∀ {a b : Nat} {r r' : RWMap.Res Nat Unit}, L[a]? = some (.ret n r) → L[b]? = some (.ret n r') → ¬ a < b := by
    intro a b r r' ha hb h
    refine (W.last _ _ _ _ (get_split ha)).1 r' (List.mem_iff_getElem?.2 ⟨b - (a + 1), ?_⟩)
    rw [List.getElem?_drop, show a + 1 + (b - (a + 1)) = b by omega]
    exact hb
  have h1 := this ha hb
  have h2 := this hb ha
  omega

theorem eff_inv (W : RWMap.Whole uEq rprog L) (hm : (rprog n).isMap = true) (hb : L[b]? = some (.eff n)) : ∃ a : Nat, a < b ∧ L[a]? = some (.inv n) :=
  of_mem_take (RWMap.eff_once W.lin hm (get_split hb)).1

theorem ret_eff' (W : RWMap.Whole uEq rprog L) (hm : (rprog n).isMap = true) {r : RWMap.Res Nat Unit} (hb : L[b]? = some (.ret n r)) :
    ∃ a : Nat, a < b ∧ L[a]? = some (.eff n) :=
  of_mem_take (RWMap.ret_once W.lin hm (get_split hb)).2.1

theorem eff_uniq (W : RWMap.Whole uEq rprog L) (hm : (rprog n).isMap = true) (ha : L[a]? = some (.eff n)) (hb : L[b]? = some (.eff n)) : a = b := by
  rcases Nat.lt_trichotomy a b with h | h | h
  · exact absurd (mem_take ha h) (RWMap.eff_once W.lin hm (get_split hb)).2.1
  · exact h
  · exact absurd (mem_take hb h) (RWMap.eff_once W.lin hm (get_split ha)).2.1

/-- The map is written by `regOp` only. -/
def RegOps (rprog : Nat → RWMap.Op Nat Unit) (L : List (LEv Nat Unit)) : Prop := ∀ n, .eff n ∈ L → (rprog n).isMap = true → ∃ c b, rprog n = regOp c b

theorem eff_snoc {k : Nat} {x : LEv Nat Unit} (h : L[k]? = some x) : effects uEq rprog (L.take (k + 1)) AMap.empty = effects uEq rprog [x] (effects uEq rprog (L.take k) AMap.empty) := by
  obtain ⟨hk, rfl⟩ := List.getElem?_eq_some_iff.1 h
  rw [← List.take_concat_get' L k hk, RWMap.effects_append]

theorem apply_regOp {b : Bool} {A : AMap Nat Unit} : (RWMap.apply uEq (regOp c b) A).1 c = if b then some () else none := by
  cases b <;> simp [regOp, RWMap.apply, AMap.set]

/-- The last `Store` or `Delete` of `c` decides. -/
theorem last_reg (hR : RegOps rprog L) (k : Nat) (hk : k ≤ L.length) :
    (effects uEq rprog (L.take k) AMap.empty c = none ∧ ∀ (x m : Nat) (b : Bool), x < k → L[x]? = some (.eff m) → rprog m ≠ regOp c b) ∨
    ∃ (x m : Nat) (b : Bool), x < k ∧ L[x]? = some (.eff m) ∧ rprog m = regOp c b ∧ effects uEq rprog (L.take k) AMap.empty c = (if b then some () else none) ∧
      ∀ (x' m' : Nat) (b' : Bool), x < x' → x' < k → L[x']? = some (.eff m') → rprog m' ≠ regOp c b' := by
  induction k with
  | zero => exact .inl ⟨rfl, fun _ _ _ h => by omega⟩
  | succ k ih =>
    obtain ⟨y, hy⟩ : ∃ y, L[k]? = some y := ⟨L[k], List.getElem?_eq_getElem hk⟩
    have ih := ih (by omega)
    rw [eff_snoc hy]
    by_cases hh : ∃ m b, y = .eff m ∧ rprog m = regOp c b
    · obtain ⟨m, b, rfl, hm⟩ := hh
      refine .inr ⟨k, m, b, by omega, hy, hm, ?_, fun x' m' b' h1 h2 => by omega⟩
      show (RWMap.apply uEq (rprog m) _).1 c = _
      rw [hm, apply_regOp]
    · have same : effects uEq rprog [y] (effects uEq rprog (L.take k) AMap.empty) c = effects uEq rprog (L.take k) AMap.empty c := by
        cases y with
        | eff m =>
          refine RWMap.apply_other ?_ _
          cases hM : (rprog m).isMap with
          | false => cases ho : rprog m <;> rw [ho] at hM <;> first | rfl | cases hM
          | true =>
            obtain ⟨c', b, hb⟩ := hR m (List.mem_of_getElem? hy) hM
            rw [hb, regOp_writes, decide_eq_false_iff_not]
            rintro rfl
            exact hh ⟨m, b, rfl, hb⟩
        | _ => rfl
      rw [same]
      have new : ∀ (x' m' : Nat) (b' : Bool), x' = k → L[x']? = some (.eff m') → rprog m' ≠ regOp c b' := by
        rintro x' m' b' rfl h1 h2
        rw [hy] at h1
        cases h1
        exact hh ⟨m', b', rfl, h2⟩
      rcases ih with ⟨h1, h2⟩ | ⟨x, m, b, h1, h2, h3, h4, h5⟩
      · refine .inl ⟨h1, fun x m b hx => ?_⟩
        rcases Nat.lt_or_eq_of_le (Nat.le_of_lt_succ hx) with hx | hx
        · exact h2 x m b hx
        · exact new x m b hx
      · refine .inr ⟨x, m, b, by omega, h2, h3, h4, fun x' m' b' hx hx' => ?_⟩
        rcases Nat.lt_or_eq_of_le (Nat.le_of_lt_succ hx') with hx' | hx'
        · exact h5 x' m' b' hx hx'
        · exact new x' m' b' hx'
end

variable [DecidableEq K] {cfg : Nat → Cfg V} {prog : Nat → Nat → RWMap.Op K Nat} {rprog : Nat → RWMap.Op Nat Unit} {w w' : Process K V} {G G' : List (GEv K V)} {g : GEv K V}
  {c c' i j n m t t' p q a z x y : Nat} {b : Bool}

theorem reg_ops (h : PExec cfg prog rprog G w) {L : List (LEv Nat Unit)} (hL : L.filterMap LEv.ev? = regs G) (W : RWMap.Whole uEq rprog L) : RegOps rprog L := by
  intro n hn hm
  obtain ⟨k, hk⟩ := List.mem_iff_getElem?.1 hn
  obtain ⟨a, -, ha⟩ := eff_inv W hm hk
  rcases (PExec.inv h).ops n ((mem_L hL (e := .inv n)).2 (List.mem_of_getElem? ha)) with h | h
  · rw [h] at hm; cases hm
  · exact h

/-! ## The theorems -/

/-- **C162**: at most one goroutine that trims is ever made, by the first `Start`. -/
theorem C162_one_trimmer (h : PExec cfg prog rprog G w) (hn : G[n]? = some (.spawn c i t)) (hm : G[m]? = some (.spawn c' j t')) : n = m ∧ t = 0 := by
  have O := PExec.once h
  have ht : w.trims = 1 := by
    have := PExec.trims h
    rcases Nat.lt_or_eq_of_le this with h0 | h0
    · exact absurd hn (O.none (by omega) _ _ _ _)
    · exact h0
  have hnm := (O.one ht).2 _ _ _ _ _ _ _ _ hn hm
  obtain ⟨x, c0, i0, hx⟩ := (O.one ht).1
  have := (O.one ht).2 _ _ _ _ _ _ _ _ hn hx
  subst this
  rw [hn] at hx
  cases hx
  exact ⟨hnm, rfl⟩

/-- A call and its return. -/
def Called (G : List (GEv K V)) (c i : Nat) (op : Op K V) (p q : Nat) : Prop :=
  p < q ∧ G[p]? = some (.item c (.loc (.call i op))) ∧ (∃ r, G[q]? = some (.item c (.loc (.ret i r)))) ∧
    ∀ (x : Nat) (op' : Op K V), p < x → x < q → G[x]? ≠ some (.item c (.loc (.call i op')))

/-- **C162**: when a call of `Start` returns, there is a goroutine that trims. -/
theorem C162_trimmer (h : PExec cfg prog rprog G w) (hs : Called G c i .start p q) : ∃ (x c i : Nat), x < q ∧ G[x]? = some (.spawn c i 0) := by
  obtain ⟨h1, h2, ⟨r, h3⟩, h4⟩ := hs
  obtain ⟨-, h5⟩ := start_reg h (b := true) rfl h2 h3 h1 h4
  obtain ⟨x, c, i, t, hx, hg⟩ := h5 rfl
  have := (C162_one_trimmer h hg hg).2
  subst this
  exact ⟨x, c, i, hx, hg⟩

/-- **C162**: the trimmer trims one cache after the other. -/
theorem C162_in_turn (h : PExec cfg prog rprog G w) (hx : G[x]? = some (.reg (.visit n c ()))) {e : RWMap.Ev Nat Unit} (hy : G[y]? = some (.reg e))
    (he : ∀ c b, rprog e.call ≠ regOp c b) (hxy : x < y) :
    ∃ z : Nat, x < z ∧ z < y ∧ G[z]? = some (.item c (.loc (.ret 0 .unit))) := by
  have key : ∀ {G : List (GEv K V)} {w : Process K V}, PExec cfg prog rprog G w → ∀ (x n c : Nat), G[x]? = some (.reg (.visit n c ())) →
      (∃ z : Nat, x < z ∧ G[z]? = some (.item c (.loc (.ret 0 .unit)))) ∨ w.tpc 0 = .round n (some c) := by
    intro G w h
    refine Path.rev (P := fun G w => ∀ (x n c : Nat), G[x]? = some (.reg (.visit n c ())) →
      (∃ z : Nat, x < z ∧ G[z]? = some (.item c (.loc (.ret 0 .unit)))) ∨ w.tpc 0 = .round n (some c)) (fun _ _ _ h => by simp at h) ?_ h
    intro G w g w' hG ih hs x n c hx
    have T := fun {t} => PExec.tpos (t := t) hG
    have old : G[x]? = some (.reg (.visit n c ())) → (w.tpc 0 = .round n (some c) → w'.tpc 0 = .round n (some c) ∨ g = .item c (.loc (.ret 0 .unit))) →
        (∃ z : Nat, x < z ∧ (G ++ [g])[z]? = some (.item c (.loc (.ret 0 .unit)))) ∨ w'.tpc 0 = .round n (some c) := by
      intro hx0 hw
      rcases ih x n c hx0 with ⟨z, h1, h2⟩ | h1
      · exact .inl ⟨z, h1, get_keep h2⟩
      · rcases hw h1 with h2 | rfl
        · exact .inr h2
        · exact .inl ⟨G.length, get_lt hx0, get_new⟩
    rcases get_snoc.1 hx with hx | ⟨-, rfl⟩
    · refine old hx fun hw => ?_
      cases hs with
      | @tick t _ _ _ h1 h2 =>
        have := PExec.trims hG
        obtain rfl : t = 0 := by omega
        rw [h1] at hw; cases hw
      | visit h1 =>
        obtain rfl := T (by rw [h1]; nofun)
        rw [h1] at hw; cases hw
      | fin h1 =>
        obtain rfl := T (by rw [h1]; nofun)
        rw [h1] at hw; cases hw
      | back h1 =>
        obtain rfl := T (by rw [h1]; nofun)
        rw [h1] at hw; cases hw
        exact .inr rfl
      | _ => exact .inl hw
    · cases hs with
      | visit h1 =>
        obtain rfl := T (by rw [h1]; nofun)
        exact .inr (by simp [Process.setT, Process.setCl])
  obtain ⟨w0, w1, h0, hs⟩ := PExec.at h hy
  have T := fun {t} => PExec.tpos (t := t) h0
  rcases key h0 x n c (by rw [List.getElem?_take_of_lt hxy]; exact hx) with ⟨z, h1, h2⟩ | h1
  · have : z < y := by have := get_lt h2; simp at this; omega
    exact ⟨z, h1, this, by rwa [List.getElem?_take_of_lt this] at h2⟩
  · exfalso
    cases hs with
    | rinv _ _ _ _ h => exact he _ _ h
    | rret _ h =>
      obtain ⟨-, ⟨b, -, hb⟩, -⟩ := (PExec.inv h0).rw _ _ _ h
      exact he _ _ hb
    | @tick t _ _ _ h2 h3 =>
      have := PExec.trims h0
      obtain rfl : t = 0 := by omega
      rw [h2] at h1; cases h1
    | visit h2 =>
      obtain rfl := T (by rw [h2]; nofun)
      rw [h2] at h1; cases h1
    | fin h2 =>
      obtain rfl := T (by rw [h2]; nofun)
      rw [h2] at h1; cases h1

/-! ### `Range` whose function always returns true -/

def RangePos : RWMap.PC Nat Unit → Prop
  | .idle | .start | .acq | .crit | .promo (.rng _) | .unl (.rng _) | .rng _ _ | .fin (.visited _ false) | .done (.visited _ false) => True
  | _ => False

theorem range_next {m m' : RWMap.State Nat Unit} {l : Nat} {ord : List (Nat × Nat) → List (Nat × Nat)} (hp : rprog n = .range)
    (hn : RWMap.next uEq rprog ord true m l = some m') (hr : RangePos (m.pc n)) : RangePos (m'.pc n) := by
  by_cases hl : n = l
  · subst hl
    cases hpc : m.pc n <;> rw [hpc] at hr
    case idle => simp only [RWMap.next, hpc, Option.some.injEq] at hn; subst hn; simp [RWMap.State.goto, RangePos]
    case start =>
      simp only [RWMap.next, hpc, hp, RWMap.startStep, Option.some.injEq] at hn
      subst hn
      simp only [RWMap.State.goto, if_true]
      split <;> trivial
    case acq =>
      simp only [RWMap.next, hpc] at hn
      split at hn <;> simp only [Option.some.injEq, reduceCtorEq] at hn
      subst hn; simp [RWMap.State.goto, RangePos]
    case crit =>
      simp only [RWMap.next, hpc, hp, RWMap.critStep, Option.some.injEq] at hn
      subst hn
      simp only [RWMap.State.goto, if_true]
      split <;> trivial
    case promo nx =>
      cases nx with
      | rng l => simp only [RWMap.next, hpc, Option.some.injEq] at hn; subst hn; simp [RWMap.State.goto, RangePos]
      | _ => exact hr.elim
    case unl nx =>
      cases nx with
      | rng l => simp only [RWMap.next, hpc, Option.some.injEq] at hn; subst hn; simp [RWMap.State.goto, RangePos]
      | _ => exact hr.elim
    case rng es acc =>
      cases es with
      | nil => simp only [RWMap.next, hpc, Option.some.injEq] at hn; subst hn; simp [RWMap.State.goto, RangePos]
      | cons x es =>
        obtain ⟨k, e⟩ := x
        simp only [RWMap.next, hpc] at hn
        split at hn <;> simp only [if_true, Option.some.injEq] at hn <;> subst hn <;> simp [RWMap.State.goto, RangePos]
    case fin r =>
      simp only [RWMap.next, hpc, Option.some.injEq] at hn; subst hn
      cases r with
      | visited es b => cases b <;> simp_all [RWMap.State.goto, RangePos]
      | _ => exact hr.elim
    case done r => simp [RWMap.next, hpc] at hn
    all_goals exact hr.elim
  · rw [RWMap.next_other hn hl]; exact hr

theorem range_full (h : PExec cfg prog rprog G w) (hn : rprog n = .range) {r : RWMap.Res Nat Unit} (hr : .ret n r ∈ regs G) : ∃ es, r = .visited es false := by
  have : RangePos (w.rg.pc n) := by
    refine Path.rev (w := .init) (P := fun _ w => RangePos (w.rg.pc n)) trivial ?_ h
    intro G w g w' _ ih hs
    cases hs with
    | rtau _ h1 => exact range_next hn h1 ih
    | rinv _ _ _ _ _ _ h1 => exact range_next hn h1 ih
    | rret _ _ _ h1 => exact range_next hn h1 ih
    | tick _ _ _ _ h1 => exact range_next hn h1 ih
    | visit _ _ h1 => exact range_next hn h1 ih
    | fin _ _ h1 => exact range_next hn h1 ih
    | _ => exact ih
  rw [((RWMap.exec_book (caches_exec h)).ret n r).1 hr] at this
  cases r with
  | visited es b => cases b with
    | false => exact ⟨es, rfl⟩
    | true => exact this.elim
  | _ => exact this.elim

/-- The call of `caches` with which `Start` or `Close` registers or removes the cache, and its instant. -/
theorem called_reg (h : PExec cfg prog rprog G w) {L : List (LEv Nat Unit)} (W : RWMap.Whole uEq rprog L) {f : Nat → Nat}
    (f1 : ∀ (a : Nat) e, G[a]? = some (.reg e) → L[f a]? = some (toLev e)) {op : Op K V} (hb : regOf op = some b) (hs : Called G c i op p q) :
    ∃ (k m a z x : Nat) (r : RWMap.Res Nat Unit), rprog m = regOp c b ∧ p < a ∧ z < q ∧ G[a]? = some (.reg (.inv m)) ∧ G[z]? = some (.reg (.ret m r)) ∧
      x = k ∧ f a < k ∧ k < f z ∧ L[k]? = some (.eff m) := by
  obtain ⟨h1, h2, ⟨r, h3⟩, h4⟩ := hs
  obtain ⟨⟨m, a, z, r', c1, c2, c3, c4, c5, c6⟩, -⟩ := start_reg h hb h2 h3 h1 h4
  have hm : (rprog m).isMap = true := by rw [c6]; exact regOp_isMap
  obtain ⟨k, hk1, hk2⟩ := ret_eff' W hm (f1 z _ c5)
  obtain ⟨a', ha1, ha2⟩ := eff_inv W hm hk2
  have : a' = f a := inv_uniq W ha2 (f1 a _ c4)
  exact ⟨k, m, a, z, k, r', c6, c1, c3, c4, c5, rfl, this ▸ ha1, hk1, hk2⟩

/-- Where the instant of a call of `caches` by `Start` or `Close` is. -/
theorem reg_called (h : PExec cfg prog rprog G w) {L : List (LEv Nat Unit)} (hL : L.filterMap LEv.ev? = regs G) (W : RWMap.Whole uEq rprog L) {f : Nat → Nat}
    (f1 : ∀ (a : Nat) e, G[a]? = some (.reg e) → L[f a]? = some (toLev e)) {k : Nat} (hm : rprog m = regOp c b) (hk : L[k]? = some (.eff m)) :
    ∃ (a i p : Nat) (op : Op K V), i % 2 = 1 ∧ regOf op = some b ∧ G[p]? = some (.item c (.loc (.call i op))) ∧ p < a ∧ G[a]? = some (.reg (.inv m)) ∧ f a < k ∧
      ∀ (x : Nat) (r' : Res V), p < x → G[x]? = some (.item c (.loc (.ret i r'))) → ∃ (z : Nat) (r : RWMap.Res Nat Unit), z < x ∧ G[z]? = some (.reg (.ret m r)) ∧ k < f z := by
  have hM : (rprog m).isMap = true := by rw [hm]; exact regOp_isMap
  obtain ⟨a', ha1, ha2⟩ := eff_inv W hM hk
  have : .reg (.inv m) ∈ G := by
    have := (mem_L hL (e := .inv m)).2 (List.mem_of_getElem? ha2)
    obtain ⟨g, hg, he⟩ := List.mem_filterMap.1 this
    cases g with
    | reg e => cases he; exact hg
    | _ => cases he
  obtain ⟨a, ha⟩ := List.mem_iff_getElem?.1 this
  have hfa : a' = f a := inv_uniq W ha2 (f1 a _ ha)
  obtain ⟨i, p, op, h1, h2, h3, h4, h5⟩ := (PExec.whose h).2 m a c b ha hm
  refine ⟨a, i, p, op, h1, h2, h4, h3, ha, hfa ▸ ha1, fun x r' hx hg => ?_⟩
  rcases h5 with ⟨z, r, h5, h6⟩ | ⟨-, h6⟩
  · obtain ⟨k', hk1, hk2⟩ := ret_eff' W hM (f1 z _ h5)
    have := eff_uniq W hM hk2 hk
    exact ⟨z, r, h6 x r' hx hg, h5, this ▸ hk1⟩
  · exact absurd hg (h6 x r' hx)

/-- **C162**: a round of the trimmer (call `n` of `caches.Range`, from `a` to `z`) trims cache `c` if a call of `Start` of `c` has returned before the round, and every
call of `Close` of `c` has returned before that call of `Start`, or is made after the round. -/
theorem C162_round (h : PExec cfg prog rprog G w) (hs : Called G c i .start p q) (hqa : q < a) (hn : rprog n = .range) (ha : G[a]? = some (.reg (.inv n)))
    {r : RWMap.Res Nat Unit} (hz : G[z]? = some (.reg (.ret n r)))
    (hc : ∀ (j p' : Nat), G[p']? = some (.item c (.loc (.call j .close))) → z < p' ∨ ∃ (q' : Nat) (r : Res V), p' < q' ∧ q' < p ∧ G[q']? = some (.item c (.loc (.ret j r)))) :
    ∃ x : Nat, a < x ∧ x < z ∧ G[x]? = some (.reg (.visit n c ())) := by
  obtain ⟨L, hL, W⟩ := RWMap.exec_whole (caches_exec h)
  obtain ⟨f, f1, f2⟩ := place hL
  have memR : ∀ {x : Nat} {e : RWMap.Ev Nat Unit}, G[x]? = some (.reg e) → e ∈ regs G := fun h => List.mem_filterMap.2 ⟨_, List.mem_of_getElem? h, rfl⟩
  obtain ⟨es, rfl⟩ := range_full h hn (memR hz)
  obtain ⟨es', st, he, -, -, hout⟩ := W.rng n _ hn (List.mem_of_getElem? (f1 z _ hz))
  cases he
  by_cases hin : c ∈ es.map Prod.fst
  · -- visited
    obtain ⟨⟨c', u⟩, hu, rfl⟩ := List.mem_map.1 hin
    have := W.pairs n es false (List.mem_of_getElem? (f1 z _ hz))
    rw [← this, hL] at hu
    obtain ⟨e, he, hu'⟩ := List.mem_filterMap.1 hu
    cases e with
    | visit n' k v =>
      simp only at hu'
      split at hu'
      · next hnn =>
        subst hnn
        cases hu'
        obtain ⟨g, hg, he⟩ := List.mem_filterMap.1 he
        cases g with
        | reg e =>
          cases he
          obtain ⟨x, hx⟩ := List.mem_iff_getElem?.1 hg
          refine ⟨x, ?_, ?_, hx⟩
          · -- after the invocation
            rcases Nat.lt_trichotomy x a with hlt | rfl | hlt
            · exfalso
              have hv := f1 x _ hx
              obtain ⟨M1, M2, e1, e2, -⟩ := W.vis n' _ () _ _ (get_split hv)
              have : .inv n' ∈ L.take (f x) := by rw [e1]; exact List.mem_append_left _ e2
              obtain ⟨y, hy1, hy2⟩ := of_mem_take this
              have h3 := inv_uniq W hy2 (f1 a _ ha)
              have h4 := f2 x a _ _ hx ha hlt
              omega
            · rw [ha] at hx; cases hx
            · exact hlt
          · rcases Nat.lt_trichotomy x z with hlt | rfl | hlt
            · exact hlt
            · rw [hz] at hx; cases hx
            · exfalso
              have h4 := f2 z x _ _ hz hx hlt
              refine (W.last _ _ _ _ (get_split (f1 z _ hz))).2 c' () (List.mem_iff_getElem?.2 ⟨f x - (f z + 1), ?_⟩)
              rw [List.getElem?_drop, show f z + 1 + (f x - (f z + 1)) = f x by omega]
              exact f1 x _ hx
        | _ => cases he
      · cases hu'
    | _ => cases hu'
  · exfalso
    obtain ⟨L1, L2, e1, e2, e3, e4⟩ := hout rfl c hin
    have hT : L.take L1.length = L1 := by rw [e1, List.take_left]
    -- the instant is between the invocation and the return
    have hfa : f a < L1.length := by
      rw [← hT] at e2
      obtain ⟨y, hy1, hy2⟩ := of_mem_take e2
      have := inv_uniq W hy2 (f1 a _ ha)
      omega
    have hfz : L1.length ≤ f z := by
      by_contra hlt
      have : .ret n (.visited es false) ∈ L1 := by rw [← hT]; exact mem_take (f1 z _ hz) (by omega)
      obtain ⟨A, B, hAB⟩ := List.append_of_mem this
      refine (W.last A n (.visited es false) (B ++ L2) (by rw [e1, hAB]; simp)).1 _ (List.mem_append_right _ e3)
    obtain ⟨k, m, a1, z1, -, r1, g1, g2, g3, g4, g5, -, g6, g7, g8⟩ := called_reg h W f1 (b := true) rfl hs
    have hz1 : f z1 < f a := f2 z1 a _ _ g5 ha (by omega)
    have hle : L1.length ≤ L.length := by rw [e1]; simp
    rw [← hT] at e4
    rcases last_reg (reg_ops h hL W) (c := c) L1.length hle with ⟨-, h2⟩ | ⟨x, m', b, h1, h2, h3, h4, h5⟩
    · exact h2 k m true (by omega) g8 g1
    · rw [e4] at h4
      cases b with
      | true => cases h4
      | false =>
        have hkx : k ≤ x := by
          by_contra hlt
          exact h5 k m true (by omega) (by omega) g8 g1
        obtain ⟨a2, j, p', op, d1, d2, d3, d4, d5, d6, d7⟩ := reg_called h hL W f1 h3 h2
        have hop : op = .close := by cases op <;> cases d2; rfl
        subst hop
        rcases hc j p' d3 with hlt | ⟨q', r', b1, b2, b3⟩
        · have := f2 z a2 _ _ hz d5 (by omega)
          omega
        · obtain ⟨z2, r2, b4, b5, b6⟩ := d7 q' r' b1 b3
          have := f2 z2 a1 _ _ b5 g4 (by omega)
          omega

/-- **C162**: if a round of the trimmer (call `n` of `caches.Range`, from `a` on) trims cache `c`, then `Start` of `c` was called before; and not so that it returned before
a call of `Close` of `c` which returned before the round. -/
theorem C162_registered (h : PExec cfg prog rprog G w) (ha : G[a]? = some (.reg (.inv n))) (hx : G[x]? = some (.reg (.visit n c ()))) :
    ∃ (i p : Nat), p < x ∧ G[p]? = some (.item c (.loc (.call i .start))) ∧
      ∀ (j p' q' : Nat), Called G c j .close p' q' → q' < a → ∀ (q : Nat) (r : Res V), p < q → G[q]? = some (.item c (.loc (.ret i r))) → p' < q := by
  obtain ⟨L, hL, W⟩ := RWMap.exec_whole (caches_exec h)
  obtain ⟨f, f1, f2⟩ := place hL
  have hv := f1 x _ hx
  obtain ⟨M1, M2, e1, e2, e3⟩ := W.vis n c () _ _ (get_split hv)
  have hlen : M1.length ≤ f x := by
    have := congrArg List.length e1
    simp at this; omega
  have hT : L.take M1.length = M1 := by
    have : L.take M1.length = (L.take (f x)).take M1.length := by rw [List.take_take, Nat.min_eq_left hlen]
    rw [this, e1, List.take_left]
  have hfa : f a < M1.length := by
    rw [← hT] at e2
    obtain ⟨y, hy1, hy2⟩ := of_mem_take e2
    have := inv_uniq W hy2 (f1 a _ ha)
    omega
  rw [← hT] at e3
  have hle : M1.length ≤ L.length := Nat.le_trans hlen (Nat.le_of_lt (get_lt hv))
  rcases last_reg (reg_ops h hL W) (c := c) M1.length hle with ⟨h1, -⟩ | ⟨y, m, b, h1, h2, h3, h4, h5⟩
  · rw [e3] at h1; cases h1
  · rw [e3] at h4
    cases b with
    | false => cases h4
    | true =>
      obtain ⟨a2, i, p, op, d1, d2, d3, d4, d5, d6, d7⟩ := reg_called h hL W f1 h3 h2
      have hop : op = .start := by cases op <;> cases d2; rfl
      subst hop
      refine ⟨i, p, ?_, d3, fun j p' q' hs hqa q r hpq hq => ?_⟩
      · rcases Nat.lt_trichotomy x a2 with hlt | rfl | hlt
        · have := f2 x a2 _ _ hx d5 hlt
          omega
        · rw [hx] at d5; cases d5
        · omega
      · obtain ⟨z2, r2, b4, b5, b6⟩ := d7 q r hpq hq
        obtain ⟨k, m', a1, z1, -, r1, g1, g2, g3, g4, g5, -, g6, g7, g8⟩ := called_reg h W f1 (b := false) rfl hs
        have hz1 : f z1 < f a := f2 z1 a _ _ g5 ha (by omega)
        have hky : k < y := by
          rcases Nat.lt_trichotomy k y with h | h | h
          · exact h
          · subst h
            rw [h2] at g8; cases g8
            have := (regOp_inj (h3.symm.trans g1)).2
            cases this
          · exact absurd g1 (h5 k m' false h (by omega) g8)
        by_contra hlt
        have := f2 z2 a1 _ _ b5 g4 (by omega)
        omega
end Verif.SyncCache.Proc
