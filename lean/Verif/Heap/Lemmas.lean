import Verif.Heap.Model
import Verif.Heap.Spec

namespace Verif.Heap
variable {T : Type}

theorem StrictWeak_asymm {lt : T → T → Bool} (h : StrictWeak lt) {a b : T} (hab : lt a b = true) :
    lt b a = false := by
  cases hba : lt b a with
  | false => rfl
  | true => have := h.trans _ _ _ hab hba; simp [h.irrefl] at this

theorem swap_spec {l : List T} {i j : Nat} (hi : i < l.length) (hj : j < l.length) :
    ∃ l', swap l i j = some l' ∧ l'.length = l.length ∧ l'.Perm l ∧
      ∀ k, l'[k]? = if k = j then l[i]? else if k = i then l[j]? else l[k]? := by
  refine ⟨(l.set i l[j]).set j l[i], ?_, by simp, ?_, ?_⟩
  · simp [swap, hi, hj]
  · by_cases hij : i = j
    · subst hij; simp
    · exact List.set_set_perm hi hj
  · intro k
    simp only [List.getElem?_set, List.length_set]
    by_cases h1 : j = k
    · subst h1; simp [hi, hj]
    · by_cases h2 : i = k
      · subst h2; simp [hi, hj, h1, Ne.symm h1]
      · simp [h1, h2, Ne.symm h1, Ne.symm h2]

theorem less_spec {lt : T → T → Bool} {l : List T} {i j : Nat} (hi : i < l.length)
    (hj : j < l.length) : less lt l i j = some (lt l[i] l[j]) := by
  simp [less, hi, hj]


/-- Heap order restricted to positions `< n` whose parent is `≥ lo`, except pairs excluded by `E`. -/
def Ord (lt : T → T → Bool) (l : List T) (n lo : Nat) (E : Nat → Prop) : Prop :=
  ∀ k, 0 < k → k < n → lo ≤ (k - 1) / 2 → ¬ E k →
    ∀ x p : T, l[k]? = some x → l[(k - 1) / 2]? = some p → lt x p = false

theorem up_spec {lt : T → T → Bool} (n : Nat) (j : Nat) (l : List T) (hj : j < n)
    (hn : n ≤ l.length) :
    ∃ l', up lt l j = some l' ∧ l'.Perm l ∧ l'.length = l.length ∧ (∀ k, n ≤ k → l'[k]? = l[k]?) ∧
      (StrictWeak lt → Ord lt l n 0 (fun k => k = j) →
        (∀ k, 0 < k → k < n → (k - 1) / 2 = j → 0 < j → ∀ x p : T, l[k]? = some x →
          l[(j - 1) / 2]? = some p → lt x p = false) →
        Ord lt l' n 0 (fun _ => False)) := by
  induction j using Nat.strongRecOn generalizing l with
  | _ j ih =>
    unfold up
    simp only
    split
    next hij =>
      refine ⟨l, rfl, .refl _, rfl, fun _ _ => rfl, fun _ h _ k hk hkn _ _ x p hx hp => ?_⟩
      exact h k hk hkn (by omega) (by omega) x p hx hp
    next hij =>
      rw [less_spec (by omega) (by omega)]
      cases hlt : lt l[j] l[(j - 1) / 2] with
      | false =>
        refine ⟨l, rfl, .refl _, rfl, fun _ _ => rfl, fun _ h _ k hk hkn hlo _ x p hx hp => ?_⟩
        by_cases hkj : k = j
        · subst hkj
          rw [List.getElem?_eq_getElem (by omega)] at hx hp
          cases hx; cases hp; exact hlt
        · exact h k hk hkn hlo hkj x p hx hp
      | true =>
        obtain ⟨l1, hs, hlen, hperm, hget⟩ := swap_spec (l := l) (i := (j - 1) / 2) (j := j)
          (by omega) (by omega)
        simp only [hs]
        obtain ⟨l', h1, h2, h3, h4, h5⟩ := ih ((j - 1) / 2) (by omega) l1 (by omega) (by omega)
        refine ⟨l', h1, h2.trans hperm, by omega, fun k hk => ?_, fun sw hord hgp => h5 sw ?_ ?_⟩
        · rw [h4 k hk, hget]; simp [show k ≠ j by omega, show k ≠ (j - 1) / 2 by omega]
        · -- pairs other than (j-1)/2
          intro k hk hkn hlo hE x p hx hp
          rw [hget] at hx hp
          have hlj : l[j]? = some l[j] := List.getElem?_eq_getElem (by omega)
          have hlp : l[(j - 1) / 2]? = some l[(j - 1) / 2] := List.getElem?_eq_getElem (by omega)
          by_cases hkj : k = j
          · subst hkj
            simp [show (k - 1) / 2 ≠ k by omega] at hx hp
            simp [hlp] at hx
            rw [hlj] at hp
            cases hx; cases hp
            exact StrictWeak_asymm sw hlt
          · simp [hkj, hE] at hx
            by_cases hpj : (k - 1) / 2 = j
            · simp [hpj] at hp
              exact hgp k hk hkn hpj (by omega) x p hx hp
            · by_cases hpp : (k - 1) / 2 = (j - 1) / 2
              · simp [hpp, show (j - 1) / 2 ≠ j by omega] at hp
                rw [hlj] at hp
                cases hp
                have := hord k hk hkn hlo hkj x _ hx (by rw [hpp]; exact hlp)
                -- x ≥ parent > l[j]
                exact sw.negTrans _ _ _ this (StrictWeak_asymm sw hlt)
              · simp [hpj, hpp] at hp
                exact hord k hk hkn hlo hkj x p hx hp
        · intro k hk hkn hpk hpos x p hx hp
          rw [hget] at hx hp
          have hlp : l[(j - 1) / 2]? = some l[(j - 1) / 2] := List.getElem?_eq_getElem (by omega)
          have hg : lt l[(j - 1) / 2] p = false := by
            simp [show ((j - 1) / 2 - 1) / 2 ≠ j by omega,
              show ((j - 1) / 2 - 1) / 2 ≠ (j - 1) / 2 by omega] at hp
            exact hord _ hpos (by omega) (by omega) (by omega) _ p hlp hp
          by_cases hkj : k = j
          · simp [hkj] at hx
            rw [hlp] at hx
            cases hx
            exact hg
          · simp [hkj, show k ≠ (j - 1) / 2 by omega] at hx
            have := hord k hk hkn (by omega) hkj x _ hx (by rw [hpk]; exact hlp)
            exact sw.negTrans _ _ _ this hg

theorem downLoop_spec {lt : T → T → Bool} (n lo : Nat) (m : Nat) : ∀ (i : Nat) (l : List T),
    n - i = m → n ≤ l.length →
    ∃ l' i', downLoop lt l i n = some (l', i') ∧ i ≤ i' ∧ l'.Perm l ∧ l'.length = l.length ∧
      (∀ k, n ≤ k → l'[k]? = l[k]?) ∧ (i' = i → l' = l) ∧ (∀ k, k < i → l'[k]? = l[k]?) ∧
      (StrictWeak lt → lo ≤ i → Ord lt l n lo (fun k => (k - 1) / 2 = i ∨ k = i) →
        (∀ k, 0 < k → k < n → (k - 1) / 2 = i → 0 < i → lo ≤ (i - 1) / 2 → ∀ x p : T,
          l[k]? = some x → l[(i - 1) / 2]? = some p → lt x p = false) →
        (i' = i → Ord lt l' n lo (fun k => k = i)) ∧
        (i < i' → Ord lt l' n lo (fun _ => False))) := by
  induction m using Nat.strongRecOn with
  | _ m ih =>
    intro i l hm hn
    unfold downLoop
    simp only
    split
    next hj1 =>
      refine ⟨l, i, rfl, Nat.le_refl _, .refl _, rfl, fun _ _ => rfl, fun _ => rfl, fun _ _ => rfl,
        fun sw hlo hord hgp => ⟨fun _ => ?_, fun h => absurd h (by omega)⟩⟩
      intro k hk hkn hlok hE x p hx hp
      refine hord k hk hkn hlok ?_ x p hx hp
      intro h; rcases h with h | h
      · omega
      · exact hE h
    next hj1 =>
      have hb : ∃ b, (if 2 * i + 1 + 1 < n then less lt l (2 * i + 1 + 1) (2 * i + 1)
          else some false) = some b ∧ (b = true → 2 * i + 1 + 1 < n) ∧
          (∀ (h1 : 2 * i + 1 < l.length) (h2 : 2 * i + 1 + 1 < l.length), 2 * i + 1 + 1 < n →
            b = lt (l[2 * i + 1 + 1]) (l[2 * i + 1])) := by
        by_cases h2 : 2 * i + 1 + 1 < n
        · rw [if_pos h2, less_spec (by omega) (by omega)]
          exact ⟨_, rfl, fun _ => h2, fun _ _ _ => rfl⟩
        · rw [if_neg h2]; exact ⟨false, rfl, by simp, fun _ _ h => absurd h h2⟩
      obtain ⟨b, hb, hb1, hb2⟩ := hb
      rw [hb]
      simp only
      have hj : ∃ j, (if b = true then 2 * i + 1 + 1 else 2 * i + 1) = j := ⟨_, rfl⟩
      obtain ⟨j, hjd⟩ := hj
      rw [hjd]
      have hjn : j < n := by
        rw [← hjd]; split
        · next h => exact hb1 h
        · omega
      have hjp : (j - 1) / 2 = i := by rw [← hjd]; split <;> omega
      have hij : i < j := by rw [← hjd]; split <;> omega
      -- j is a least child
      have hmin : StrictWeak lt → ∀ k, 0 < k → k < n → (k - 1) / 2 = i → ∀ x y, l[k]? = some x →
          l[j]? = some y → lt x y = false := by
        intro sw k hk hkn hki x y hx hy
        have : k = 2 * i + 1 ∨ k = 2 * i + 1 + 1 := by omega
        rw [List.getElem?_eq_getElem (by omega)] at hx hy
        cases hx; cases hy
        by_cases hkj : k = j
        · subst hkj; exact sw.irrefl _
        · cases b with
          | true =>
            simp at hjd
            have hk1 : k = 2 * i + 1 := by omega
            subst hk1; subst hjd
            exact StrictWeak_asymm sw (hb2 (by omega) (by omega) hjn).symm
          | false =>
            simp at hjd
            have hk1 : k = 2 * i + 1 + 1 := by omega
            subst hk1; subst hjd
            exact (hb2 (by omega) (by omega) hkn).symm
      have hli : l[i]? = some l[i] := List.getElem?_eq_getElem (by omega)
      have hlj : l[j]? = some l[j] := List.getElem?_eq_getElem (by omega)
      rw [less_spec (by omega) (by omega)]
      cases hlt : lt l[j] l[i] with
      | false =>
        refine ⟨l, i, rfl, Nat.le_refl _, .refl _, rfl, fun _ _ => rfl, fun _ => rfl, fun _ _ => rfl,
          fun sw hlo hord hgp => ⟨fun _ => ?_, fun h => absurd h (by omega)⟩⟩
        intro k hk hkn hlok hE x p hx hp
        by_cases hki : (k - 1) / 2 = i
        · rw [hki, hli] at hp
          cases hp
          exact sw.negTrans _ _ _ (hmin sw k hk hkn hki x _ hx hlj) hlt
        · exact hord k hk hkn hlok (by simp [hki]; exact hE) x p hx hp
      | true =>
        obtain ⟨l1, hs, hlen, hperm, hget⟩ := swap_spec (l := l) (i := i) (j := j)
          (by omega) (by omega)
        simp only [hs]
        obtain ⟨l', i', h1, h2, h3, h4, h5, h6, h7, h8⟩ :=
          ih (n - j) (by omega) j l1 rfl (by omega)
        refine ⟨l', i', h1, by omega, h3.trans hperm, by omega, fun k hk => ?_, by omega,
          fun k hk => ?_, fun sw hlo hord hgp => ⟨by omega, fun _ => ?_⟩⟩
        · rw [h5 k hk, hget]; simp [show k ≠ j by omega, show k ≠ i by omega]
        · rw [h7 k (by omega), hget]; simp [show k ≠ j by omega, show k ≠ i by omega]
        · have hA : Ord lt l1 n lo (fun k => (k - 1) / 2 = j) := by
            intro k hk hkn hlok hE x p hx hp
            rw [hget] at hx hp
            by_cases hkj : k = j
            · subst hkj
              simp [hjp, show i ≠ k by omega] at hx hp
              rw [hli] at hx
              rw [hlj] at hp
              cases hx; cases hp
              exact StrictWeak_asymm sw hlt
            · by_cases hki : k = i
              · subst hki
                simp [show k ≠ j by omega] at hx
                have hne : (k - 1) / 2 ≠ k := by omega
                simp [show (k - 1) / 2 ≠ j by omega, hne] at hp
                exact hgp j (by omega) hjn hjp hk hlok x p hx hp
              · simp [hkj, hki] at hx
                by_cases hkp : (k - 1) / 2 = i
                · simp [hkp, show i ≠ j by omega] at hp
                  exact hmin sw k hk hkn hkp x p hx hp
                · simp [hkp, hE] at hp
                  exact hord k hk hkn hlok (by simp [hkp, hki]) x p hx hp
          have hB : ∀ k, 0 < k → k < n → (k - 1) / 2 = j → 0 < j → lo ≤ (j - 1) / 2 → ∀ x p : T,
              l1[k]? = some x → l1[(j - 1) / 2]? = some p → lt x p = false := by
            intro k hk hkn hkj _ hloj x p hx hp
            rw [hget] at hx hp
            simp [show k ≠ j by omega, show k ≠ i by omega] at hx
            simp [hjp, show i ≠ j by omega] at hp
            exact hord k hk hkn (by omega) (by omega) x p hx (by rw [hkj]; exact hp)
          have h9 := h8 sw (by omega) (fun k hk hkn hlok hE => hA k hk hkn hlok (by
            intro h; exact hE (Or.inl h))) hB
          by_cases hi' : i' = j
          · have hll := h6 hi'
            intro k hk hkn hlok _ x p hx hp
            by_cases hkj : k = j
            · subst hkj
              rw [hll] at hx hp
              exact hA k hk hkn hlok (by omega) x p hx hp
            · exact h9.1 hi' k hk hkn hlok hkj x p hx hp
          · exact h9.2 (by omega)


theorem rawPop_spec {l : List T} {n : Nat} (h : l.length = n + 1) :
    ∃ x, l[n]? = some x ∧ rawPop l = some (x, l.take n) ∧ l = l.take n ++ [x] := by
  have hne : l ≠ [] := by intro h0; simp [h0] at h
  refine ⟨l.getLast hne, ?_, ?_, ?_⟩
  · rw [List.getLast_eq_getElem]; simp [h]
  · simp [rawPop, List.getLast?_eq_some_getLast hne, List.dropLast_eq_take, h]
  · have := List.dropLast_concat_getLast hne
    rw [List.dropLast_eq_take, h] at this
    simpa using this.symm

theorem Ord_full_iff {lt : T → T → Bool} {l : List T} :
    Ord lt l l.length 0 (fun _ => False) ↔ IsHeap lt l := by
  constructor
  · intro h k hk x p hx hp
    have : k < l.length := by
      rcases Nat.lt_or_ge k l.length with h1 | h1
      · exact h1
      · simp [List.getElem?_eq_none h1] at hx
    exact h k hk this (by omega) (by simp) x p hx hp
  · intro h k hk _ _ _ x p hx hp
    exact h k hk x p hx hp

theorem Ord_take {lt : T → T → Bool} {l : List T} {n : Nat}
    (h : Ord lt l n 0 (fun _ => False)) : IsHeap lt (l.take n) := by
  intro k hk x p hx hp
  rw [List.getElem?_take] at hx hp
  split at hx
  · next h1 => rw [if_pos (by omega)] at hp; exact h k hk h1 (by omega) (by simp) x p hx hp
  · simp at hx

theorem down_spec {lt : T → T → Bool} (n lo : Nat) (i : Nat) (l : List T) (hn : n ≤ l.length) :
    ∃ l' b, down lt l i n = some (l', b) ∧ l'.Perm l ∧ l'.length = l.length ∧
      (∀ k, n ≤ k → l'[k]? = l[k]?) ∧ (b = false → l' = l) ∧ (∀ k, k < i → l'[k]? = l[k]?) ∧
      (StrictWeak lt → lo ≤ i → Ord lt l n lo (fun k => (k - 1) / 2 = i ∨ k = i) →
        (∀ k, 0 < k → k < n → (k - 1) / 2 = i → 0 < i → lo ≤ (i - 1) / 2 → ∀ x p : T,
          l[k]? = some x → l[(i - 1) / 2]? = some p → lt x p = false) →
        (b = false → Ord lt l' n lo (fun k => k = i)) ∧
        (b = true → Ord lt l' n lo (fun _ => False))) := by
  obtain ⟨l', i', h1, h2, h3, h4, h5, h6, h7, h8⟩ := downLoop_spec (lt := lt) n lo _ i l rfl hn
  refine ⟨l', decide (i' > i), by simp [down, h1], h3, h4, h5, fun h => h6 ?_, h7,
    fun sw hlo ho hg => ?_⟩
  · simp at h; omega
  · have := h8 sw hlo ho hg
    refine ⟨fun h => this.1 ?_, fun h => this.2 ?_⟩
    · simp at h; omega
    · simpa using h

theorem initLoop_spec {lt : T → T → Bool} (n : Nat) : ∀ (k : Nat) (l : List T), l.length = n →
    ∃ l', initLoop lt l n k = some l' ∧ l'.Perm l ∧ l'.length = n ∧
      (StrictWeak lt → Ord lt l n k (fun _ => False) → Ord lt l' n 0 (fun _ => False)) := by
  intro k
  induction k with
  | zero => intro l hl; exact ⟨l, rfl, .refl _, hl, fun _ h => h⟩
  | succ k ih =>
    intro l hl
    obtain ⟨l1, b, h1, h2, h3, _, _, _, h5⟩ := down_spec (lt := lt) n k k l (by omega)
    obtain ⟨l', g1, g2, g3, g4⟩ := ih l1 (by omega)
    refine ⟨l', by simp [initLoop, h1, g1], g2.trans h2, g3, fun sw ho => g4 sw ?_⟩
    have := h5 sw (Nat.le_refl _) (fun j hj hjn hlo hE x p hx hp => by
      simp only [not_or] at hE
      exact ho j hj hjn (by omega) (by simp) x p hx hp) (fun j _ _ _ _ _ => by omega)
    cases b with
    | true => exact this.2 rfl
    | false =>
      intro j hj hjn hlo _ x p hx hp
      exact this.1 rfl j hj hjn hlo (by omega) x p hx hp

theorem init_spec {lt : T → T → Bool} (l : List T) :
    ∃ l', init lt l = some l' ∧ l'.Perm l ∧ (StrictWeak lt → IsHeap lt l') := by
  obtain ⟨l', h1, h2, h3, h4⟩ := initLoop_spec (lt := lt) l.length (l.length / 2) l rfl
  refine ⟨l', h1, h2, fun sw => Ord_full_iff.1 ?_⟩
  rw [h3]
  refine h4 sw ?_
  intro k hk hkn hlo; omega

theorem push_spec {lt : T → T → Bool} (l : List T) (x : T) :
    ∃ l', push lt l x = some l' ∧ l'.Perm (x :: l) ∧
      (StrictWeak lt → IsHeap lt l → IsHeap lt l') := by
  have hlen : (rawPush l x).length = l.length + 1 := by simp [rawPush]
  obtain ⟨l', h1, h2, h3, _, h5⟩ := up_spec (lt := lt) (l.length + 1) l.length (rawPush l x)
    (by omega) (by omega)
  refine ⟨l', by simp [push, hlen, h1], h2.trans ?_, fun sw hh => ?_⟩
  · simp [rawPush]
  · refine Ord_full_iff.1 ?_
    rw [h3, hlen]
    refine h5 sw ?_ (fun k hk hkn hkp => by omega)
    intro k hk hkn hlo hE a p ha hp
    refine hh k hk a p ?_ ?_
    · simpa [rawPush, List.getElem?_append_left (show k < l.length by omega)] using ha
    · simpa [rawPush, List.getElem?_append_left (show (k - 1) / 2 < l.length by omega)] using hp

theorem pop_spec {lt : T → T → Bool} (l : List T) (hl : 0 < l.length) :
    ∃ x l', pop lt l = some (x, l') ∧ l.Perm (x :: l') ∧ l[0]? = some x ∧
      (StrictWeak lt → IsHeap lt l → IsHeap lt l') := by
  obtain ⟨l1, hs, hlen, hperm, hget⟩ := swap_spec (l := l) (i := 0) (j := l.length - 1)
    (by omega) (by omega)
  obtain ⟨l2, b, h1, h2, h3, h4, _, _, h5⟩ := down_spec (lt := lt) (l.length - 1) 0 0 l1 (by omega)
  obtain ⟨x, hx, hp, he⟩ := rawPop_spec (l := l2) (n := l.length - 1) (by omega)
  refine ⟨x, l2.take (l.length - 1), ?_, ?_, ?_, fun sw hh => ?_⟩
  · simp [pop, show l.length ≠ 0 by omega, hs, h1, hp]
  · refine (h2.trans hperm).symm.trans ?_
    have : l2.Perm (x :: l2.take (l.length - 1)) := by
      conv => lhs; rw [he]
      simp
    exact this
  · rw [h4 _ (Nat.le_refl _), hget] at hx
    simpa using hx
  · refine Ord_take ?_
    have := h5 sw (Nat.le_refl _) (fun k hk hkn _ hE a p ha hp => by
      simp only [not_or] at hE
      rw [hget] at ha hp
      rw [if_neg (by omega), if_neg (by omega)] at ha
      rw [if_neg (by omega), if_neg (by omega)] at hp
      exact hh k hk a p ha hp) (fun k _ _ _ _ => by omega)
    cases b with
    | true => exact this.2 rfl
    | false =>
      intro k hk hkn hlo _ a p ha hp
      exact this.1 rfl k hk hkn hlo (by omega) a p ha hp

/-- The state in which only position `i` may be wrong: it becomes a heap by `down` then `up`. -/
theorem downUp_spec {lt : T → T → Bool} (n i : Nat) (l : List T) (hi : i < n) (hn : n ≤ l.length) :
    ∃ l1 b l', down lt l i n = some (l1, b) ∧
      (b = true → l' = l1) ∧ (b = false → up lt l1 i = some l') ∧ l'.Perm l ∧
      l'.length = l.length ∧ (∀ k, n ≤ k → l'[k]? = l[k]?) ∧
      (StrictWeak lt → Ord lt l n 0 (fun k => (k - 1) / 2 = i ∨ k = i) →
        (∀ k, 0 < k → k < n → (k - 1) / 2 = i → 0 < i → ∀ x p : T,
          l[k]? = some x → l[(i - 1) / 2]? = some p → lt x p = false) →
        Ord lt l' n 0 (fun _ => False)) := by
  obtain ⟨l1, b, h1, h2, h3, h4, h5, _, h6⟩ := down_spec (lt := lt) n 0 i l hn
  cases b with
  | true =>
    exact ⟨l1, true, l1, h1, fun _ => rfl, by simp, h2, h3, h4, fun sw ho hg =>
      (h6 sw (by omega) ho (fun k a b c d _ => hg k a b c d)).2 rfl⟩
  | false =>
    have hll := h5 rfl
    subst hll
    obtain ⟨l', g1, g2, g3, g4, g5⟩ := up_spec (lt := lt) n i l1 hi hn
    refine ⟨l1, false, l', h1, by simp, fun _ => g1, g2, g3, g4, fun sw ho hg => g5 sw ?_ hg⟩
    exact (h6 sw (by omega) ho (fun k a b c d _ => hg k a b c d)).1 rfl

theorem fix_spec {lt : T → T → Bool} (l : List T) (i : Nat) (hi : i < l.length) :
    ∃ l', fix lt l (i : Int) = some l' ∧ l'.Perm l ∧
      (StrictWeak lt → ∀ l0 : List T, IsHeap lt l0 → l0.length = l.length →
        (∀ k, k ≠ i → l[k]? = l0[k]?) → IsHeap lt l') := by
  obtain ⟨l1, b, l', h1, h2, h3, h4, h5, _, h7⟩ := downUp_spec (lt := lt) l.length i l hi
    (Nat.le_refl _)
  refine ⟨l', ?_, h4, fun sw l0 hh hlen hk => ?_⟩
  · cases b with
    | true =>
      have := h2 rfl; subst this
      simp [fix, h1, show ¬ ((i : Int) < 0) by omega]
    | false => simp [fix, h1, h3 rfl, show ¬ ((i : Int) < 0) by omega]
  · refine Ord_full_iff.1 ?_
    rw [h5]
    refine h7 sw ?_ ?_
    · intro k hk0 hkn _ hE x p hx hp
      simp only [not_or] at hE
      rw [hk _ hE.2] at hx
      rw [hk _ hE.1] at hp
      exact hh k hk0 x p hx hp
    · intro k hk0 hkn hki hi0 x p hx hp
      rw [hk _ (by omega)] at hx hp
      have hy : l0[i]? = some l0[i] := List.getElem?_eq_getElem (by omega)
      exact sw.negTrans _ _ _ (hh k hk0 x _ hx (by rw [hki]; exact hy)) (hh i hi0 _ p hy hp)

theorem remove_spec {lt : T → T → Bool} (l : List T) (i : Nat) (hi : i < l.length) :
    ∃ x l', remove lt l (i : Int) = some (x, l') ∧ l[i]? = some x ∧ l.Perm (x :: l') ∧
      (StrictWeak lt → IsHeap lt l → IsHeap lt l') := by
  by_cases hin : l.length - 1 = i
  · obtain ⟨x, hx, hp, he⟩ := rawPop_spec (l := l) (n := i) (by omega)
    refine ⟨x, l.take i, ?_, hx, ?_, fun sw hh => ?_⟩
    · have : l ≠ [] := by intro h; simp [h] at hi
      simp [remove, show ¬ ((i : Int) < 0) by omega, this, hin, hp]
    · conv => lhs; rw [he]
      simp
    · refine Ord_take ?_
      intro k hk _ _ _ a p ha hp
      exact hh k hk a p ha hp
  · obtain ⟨l0, hs, hlen, hperm, hget⟩ := swap_spec (l := l) (i := i) (j := l.length - 1)
      (by omega) (by omega)
    obtain ⟨l1, b, l', h1, h2, h3, h4, h5, h6, h7⟩ := downUp_spec (lt := lt) (l.length - 1) i l0
      (by omega) (by omega)
    obtain ⟨x, hx, hp, he⟩ := rawPop_spec (l := l') (n := l.length - 1) (by omega)
    refine ⟨x, l'.take (l.length - 1), ?_, ?_, ?_, fun sw hh => ?_⟩
    · have hne : l ≠ [] := by intro h; simp [h] at hi
      cases b with
      | true =>
        have := h2 rfl; subst this
        simp [remove, show ¬ ((i : Int) < 0) by omega, hne, hin, hs, h1, hp]
      | false => simp [remove, show ¬ ((i : Int) < 0) by omega, hne, hin, hs, h1, h3 rfl, hp]
    · rw [h6 _ (Nat.le_refl _), hget] at hx
      simpa using hx
    · refine (h4.trans hperm).symm.trans ?_
      have : l'.Perm (x :: l'.take (l.length - 1)) := by
        conv => lhs; rw [he]
        simp
      exact this
    · refine Ord_take (h7 sw ?_ ?_)
      · intro k hk hkn _ hE a p ha hp
        simp only [not_or] at hE
        rw [hget, if_neg (by omega), if_neg hE.2] at ha
        rw [hget, if_neg (by omega), if_neg hE.1] at hp
        exact hh k hk a p ha hp
      · intro k hk hkn hki hi0 a p ha hp
        rw [hget, if_neg (by omega), if_neg (by omega)] at ha
        rw [hget, if_neg (by omega), if_neg (by omega)] at hp
        have hy : l[i]? = some l[i] := List.getElem?_eq_getElem (by omega)
        exact sw.negTrans _ _ _ (hh k hk a _ ha (by rw [hki]; exact hy)) (hh i hi0 _ p hy hp)

theorem root_least {lt : T → T → Bool} (sw : StrictWeak lt) {l : List T} (h : IsHeap lt l) {r : T}
    (hr : l[0]? = some r) : ∀ y ∈ l, lt y r = false := by
  have key : ∀ (k : Nat) (y : T), l[k]? = some y → lt y r = false := by
    intro k
    induction k using Nat.strongRecOn with
    | _ k ih =>
      intro y hy
      by_cases hk : k = 0
      · subst hk; rw [hr] at hy; cases hy; exact sw.irrefl _
      · have hlt : k < l.length := by
          rcases Nat.lt_or_ge k l.length with h1 | h1
          · exact h1
          · simp [List.getElem?_eq_none h1] at hy
        have hp : l[(k - 1) / 2]? = some l[(k - 1) / 2] := List.getElem?_eq_getElem (by omega)
        exact sw.negTrans _ _ _ (h k (by omega) y _ hy hp) (ih _ (by omega) _ hp)
  intro y hy
  obtain ⟨k, hk⟩ := List.mem_iff_getElem?.1 hy
  exact key k y hk

theorem drain_spec {lt : T → T → Bool} : ∀ (k : Nat) (l : List T), l.length ≤ k →
    ∃ xs, drain lt k l = some xs ∧ xs.Perm l ∧ (StrictWeak lt → IsHeap lt l → Sorted lt xs) := by
  intro k
  induction k with
  | zero =>
    intro l hl
    have : l = [] := List.eq_nil_of_length_eq_zero (by omega)
    subst this
    exact ⟨[], rfl, .refl _, fun _ _ => List.Pairwise.nil⟩
  | succ k ih =>
    intro l hl
    by_cases h0 : l.length = 0
    · have : l = [] := List.eq_nil_of_length_eq_zero h0
      subst this
      exact ⟨[], rfl, .refl _, fun _ _ => List.Pairwise.nil⟩
    · obtain ⟨x, l', h1, h2, h3, h4⟩ := pop_spec (lt := lt) l (by omega)
      have hl' : l'.length ≤ k := by have := h2.length_eq; simp at this; omega
      obtain ⟨xs, g1, g2, g3⟩ := ih l' hl'
      have h0' : l ≠ [] := by intro h; simp [h] at h0
      refine ⟨x :: xs, by simp [drain, h0', h1, g1], (g2.cons x).trans h2.symm, fun sw hh => ?_⟩
      refine List.Pairwise.cons (fun y hy => ?_) (g3 sw (h4 sw hh))
      exact root_least sw hh h3 y (h2.mem_iff.2 (List.mem_cons_of_mem _ (g2.mem_iff.1 hy)))

end Verif.Heap
