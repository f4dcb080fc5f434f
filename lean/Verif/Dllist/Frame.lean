import Verif.Dllist.Range
/-!
# What the operations of `dllist` leave alone

Elements that are in none of the lists an operation works on keep their links and their owner: also elements left behind by `Clear` and `Sort`.
-/
namespace Verif.Dllist
open Spec (Op Res St Client SRun Safe valsOf insBefore insAfter nextOf prevOf exchange StableSorted)
variable {T A : Type} {m m' m'' : Mem T} {s : St T} {S S' S'' : Nat → List Nat} {X Y : Nat → Prop}

/-- From `m` to `m'` only the lists `X` were changed; elements in none of them kept their links and their owner. -/
structure Kept (X : Nat → Prop) (m : Mem T) (S : Nat → List Nat) (m' : Mem T) (S' : Nat → List Nat) : Prop where
  rep : Rep m' S'
  fresh : m.fresh ≤ m'.fresh
  freshL : m.freshL ≤ m'.freshL
  other : ∀ l, ¬ X l → S' l = S l
  keep : ∀ k, k < m.fresh → m.owner (.node k) ≠ none → (∀ l, X l → k ∉ S l) →
    (∀ l, X l → k ∉ S' l) ∧ m'.owner (.node k) = m.owner (.node k) ∧ m'.next (.node k) = m.next (.node k)

theorem Kept.refl (h : Rep m S) : Kept X m S m S :=
  ⟨h, Nat.le_refl _, Nat.le_refl _, fun _ _ => rfl, fun _ _ _ h => ⟨h, rfl, rfl⟩⟩

theorem Kept.trans (h1 : Kept X m S m' S') (h2 : Kept X m' S' m'' S'') : Kept X m S m'' S'' := by
  refine ⟨h2.rep, Nat.le_trans h1.fresh h2.fresh, Nat.le_trans h1.freshL h2.freshL, fun l hl => by rw [h2.other l hl, h1.other l hl], ?_⟩
  intro k hk ho hx
  obtain ⟨a1, a2, a3⟩ := h1.keep k hk ho hx
  obtain ⟨b1, b2, b3⟩ := h2.keep k (Nat.lt_of_lt_of_le hk h1.fresh) (by rw [a2]; exact ho) a1
  exact ⟨b1, b2.trans a2, b3.trans a3⟩

theorem Kept.mono (h : Kept X m S m' S') (hXY : ∀ l, X l → Y l) : Kept Y m S m' S' := by
  refine ⟨h.rep, h.fresh, h.freshL, fun l hl => h.other l fun hx => hl (hXY l hx), fun k hk ho hy => ?_⟩
  obtain ⟨a1, a2, a3⟩ := h.keep k hk ho fun l hl => hy l (hXY l hl)
  refine ⟨fun l hl => ?_, a2, a3⟩
  by_cases hx : X l
  · exact a1 l hx
  · rw [h.other l hx]; exact hy l hl

theorem lastP_ne {l k : Nat} {xs : List Nat} (h : k ∉ xs) : (Ptr.node k) ≠ lastP l xs := by
  unfold lastP
  cases hx : xs.getLast? with
  | none => simp
  | some n =>
    rintro e
    injection e with e
    subst e
    exact h (List.mem_of_getLast? hx)

theorem insertValue_kept (h : Rep m S) {l : Nat} (hi : m.inited l = true) {xs ys : List Nat} (hS : S l = xs ++ ys) {v : T} {n : Nat}
    (e : insertValue m l v (some (lastP l xs)) = some (m', n)) : ∃ S', Kept (· = l) m S m' S' := by
  obtain ⟨m1, e1, hr, hv, hf, hfl, ho, hin⟩ := insertValue_rep h hi hS v
  obtain ⟨rfl, rfl⟩ : m1 = m' ∧ m.fresh = n := by rw [e1] at e; simpa using e
  refine ⟨_, hr, by omega, by omega, fun l' hl => by simp [upd, hl], ?_⟩
  rintro k hk hok hx
  have hkS : k ∉ S l := hx l rfl
  refine ⟨?_, ?_, ?_⟩
  · rintro _ rfl
    rw [hS] at hkS
    simp only [List.mem_append, not_or] at hkS
    simp [upd, hkS]
    omega
  · rw [ho]; simp [upd]; omega
  · have k1 : Ptr.node k ≠ lastP l xs := lastP_ne fun hc => hkS (by rw [hS]; simp [hc])
    have k2 : k ≠ m.fresh := by omega
    simp only [insertValue, Dllist.insert, Option.bind_eq_bind, Option.bind_some, Option.bind_eq_some_iff] at e
    obtain ⟨m2, ⟨p, hp, q, hq, h1⟩, e⟩ := e
    simp only [Option.some.injEq, Prod.mk.injEq] at e h1
    obtain ⟨rfl, _⟩ := e
    subst h1
    have hp' : p = lastP l xs := by
      simp only [Mem.setNext, Mem.setPrev, upd, if_pos] at hp
      exact (Option.some.inj hp).symm
    simp [Mem.setNext, Mem.setPrev, Mem.setOwner, Mem.setLen, upd, hp', k1, k2]

theorem remove_kept (h : Rep m S) {l n : Nat} (hn : n ∈ S l) (e : remove m l (.node n) = some m') : ∃ S', Kept (· = l) m S m' S' ∧ ∀ l', n ∉ S' l' := by
  have hi := h.init_of_mem hn
  obtain ⟨xs, ys, hS⟩ := List.append_of_mem hn
  obtain ⟨m1, e1, hr, hs, ho⟩ := remove_rep h hS
  obtain rfl : m1 = m' := by rw [e1] at e; simpa using e
  obtain ⟨_, h2⟩ := h.links hi (xs := xs) (ys := n :: ys) hS
  rw [headP_cons] at h2
  refine ⟨_, ⟨hr, Nat.le_of_eq hs.fresh.symm, Nat.le_of_eq hs.freshL.symm, fun l' hl => by simp [upd, hl], ?_⟩, ?_⟩
  · intro k hk hok hx
    have hkS : k ∉ S l := hx l rfl
    have k2 : k ≠ n := by rintro rfl; exact hkS hn
    refine ⟨?_, ?_, ?_⟩
    · rintro _ rfl
      rw [hS] at hkS
      simp only [List.mem_append, List.mem_cons, not_or] at hkS
      simp [upd, hkS]
    · rw [ho]; simp [upd, k2]
    · have k1 : Ptr.node k ≠ lastP l xs := lastP_ne fun hc => hkS (by rw [hS]; simp [hc])
      simp only [remove, h2, Option.bind_eq_bind, Option.bind_some, Option.bind_eq_some_iff] at e
      obtain ⟨a, ha, h1⟩ := e
      simp only [Option.some.injEq] at h1
      subst h1
      simp [Mem.setNext, Mem.setPrev, Mem.setOwner, Mem.setLen, upd, k1, k2]
  · intro l' hc
    have h3 := hr.owner l' n hc
    rw [ho] at h3
    simp [upd] at h3

theorem move_kept (h : Rep m S) {l n : Nat} (hn : n ∈ S l) {us ws : List Nat} (hu : (S l).erase n = us ++ ws)
    (e : move m (.node n) (some (lastP l us)) = some m') : ∃ S', Kept (· = l) m S m' S' := by
  have hi := h.init_of_mem hn
  obtain ⟨xs, ys, hS, _, _, h4⟩ := split_nodup (h.nodup l) hn
  obtain ⟨m1, e1, hr, hs, ho⟩ := move_rep h hS (us := us) (ws := ws) (by rw [← h4, hu])
  obtain rfl : m1 = m' := by rw [e1] at e; simpa using e
  obtain ⟨_, h2⟩ := h.links hi (xs := xs) (ys := n :: ys) hS
  rw [headP_cons] at h2
  have hus : ∀ k, k ∈ us ++ ws → k ∈ S l := fun k hk => List.mem_of_mem_erase (hu ▸ hk)
  refine ⟨_, hr, Nat.le_of_eq hs.fresh.symm, Nat.le_of_eq hs.freshL.symm, fun l' hl => by simp [upd, hl], ?_⟩
  intro k hk hok hx
  have hkS : k ∉ S l := hx l rfl
  have k2 : k ≠ n := by rintro rfl; exact hkS hn
  refine ⟨?_, by rw [ho], ?_⟩
  · rintro _ rfl
    have h5 : k ∉ us := fun hc => hkS (hus k (by simp [hc]))
    have h6 : k ∉ ws := fun hc => hkS (hus k (by simp [hc]))
    simp [upd, h5, h6, k2]
  · have k1 : Ptr.node k ≠ lastP l xs := lastP_ne fun hc => hkS (by rw [hS]; simp [hc])
    have k3 : Ptr.node k ≠ lastP l us := lastP_ne fun hc => hkS (hus k (by simp [hc]))
    unfold move at e
    split at e
    · cases e; rfl
    · simp only [h2, Option.bind_eq_bind, Option.bind_some] at e
      simp only [Option.bind_eq_some_iff] at e
      obtain ⟨a, ha, b, hb, c, hc, d⟩ := e
      simp only [Option.some.injEq] at d
      subst d
      have hb' : b = lastP l us := by
        simp only [Mem.setNext, Mem.setPrev, upd, if_pos] at hb
        exact (Option.some.inj hb).symm
      simp [Mem.setNext, Mem.setPrev, upd, hb', k1, k2, k3]

theorem swap_kept (h : Rep m S) {l a b : Nat} (ha : a ∈ S l) (hb : b ∈ S l) (e : swap m l a b = some m') : ∃ S', Kept (· = l) m S m' S' := by
  have hi := h.init_of_mem ha
  obtain ⟨m1, e1, hr, hs, ho⟩ := swap_rep h ha hb
  obtain rfl : m1 = m' := by rw [e1] at e; simpa using e
  refine ⟨_, hr, Nat.le_of_eq hs.fresh.symm, Nat.le_of_eq hs.freshL.symm, fun l' hl => by simp [upd, hl], ?_⟩
  intro k hk hok hx
  have hkS : k ∉ S l := hx l rfl
  have ka : k ≠ a := by rintro rfl; exact hkS ha
  have kb : k ≠ b := by rintro rfl; exact hkS hb
  refine ⟨?_, by rw [ho], ?_⟩
  · rintro _ rfl
    simp only [upd, if_true]
    exact fun hc => hkS (exch_mem ha hb hc)
  · obtain ⟨ap, dap, pa, nap⟩ := h.prevs hi (Or.inr ⟨a, ha, rfl⟩ : dom l (S l) (.node a))
    obtain ⟨bp, dbp, pb, nbp⟩ := h.prevs hi (Or.inr ⟨b, hb, rfl⟩ : dom l (S l) (.node b))
    have hd : ∀ p, dom l (S l) p → Ptr.node k ≠ p := by
      rintro p (rfl | ⟨x, hx, rfl⟩)
      · simp
      · rintro e; injection e with e; subst e; exact hkS hx
    have k1 := hd _ dap
    have k2 := hd _ dbp
    unfold swap at e
    dsimp only at e
    split at e
    · cases e; rfl
    · split at e
      · simp only [pa, Option.bind_eq_bind, Option.bind_some, Option.bind_eq_some_iff, Option.some.injEq] at e
        obtain ⟨bn, _, e⟩ := e
        subst e
        simp [Mem.setNext, Mem.setPrev, upd, ka, kb, k1]
      · split at e
        · simp only [pb, Option.bind_eq_bind, Option.bind_some, Option.bind_eq_some_iff, Option.some.injEq] at e
          obtain ⟨bn, _, e⟩ := e
          subst e
          simp [Mem.setNext, Mem.setPrev, upd, ka, kb, k2]
        · simp only [pa, Option.bind_eq_bind, Option.bind_some, Option.bind_eq_some_iff, Option.some.injEq] at e
          obtain ⟨an, _, bp', hbp, bn, _, e⟩ := e
          subst e
          have k3 : Ptr.node k ≠ bp' := by
            simp only [Mem.setNext, Mem.setPrev, upd] at hbp
            split at hbp
            · simp only [Option.some.injEq] at hbp; rw [← hbp]; simpa using kb
            · rw [pb] at hbp; simp only [Option.some.injEq] at hbp; rw [← hbp]; exact k2
          simp [Mem.setNext, Mem.setPrev, upd, ka, kb, k1, k3]

theorem clear_kept (h : Rep m S) {l : Nat} (hl : l < m.freshL) : Kept (· = l) m S (clear m l) (upd S l []) :=
  ⟨clear_rep h l hl, Nat.le_refl _, Nat.le_refl _, fun l' hl => by simp [upd, hl], fun k _ _ _ =>
    ⟨by rintro _ rfl; simp [upd], rfl, by simp [clear, Mem.setNext, Mem.setPrev, Mem.setLen, Mem.setInited, upd]⟩⟩

theorem lazyInit_kept (h : Rep m S) {l : Nat} (hl : l < m.freshL) (X : Nat → Prop) : Kept X m S (lazyInit m l) S ∧ (lazyInit m l).inited l = true := by
  obtain ⟨h1, h2, h3, h4, _, h6, _⟩ := lazyInit_rep h l hl
  refine ⟨⟨h1, Nat.le_of_eq h3.symm, Nat.le_of_eq h4.symm, fun _ _ => rfl, fun k _ _ hx => ⟨hx, by rw [h6], ?_⟩⟩, h2⟩
  unfold lazyInit
  split
  · rfl
  · simp [clear, Mem.setNext, Mem.setPrev, Mem.setLen, Mem.setInited, upd]

theorem zeroList_kept (h : Rep m S) (X : Nat → Prop) : Kept X m S (zeroList m).1 S :=
  ⟨(zeroList_rep h).1, Nat.le_refl _, Nat.le_succ _, fun _ _ => rfl, fun _ _ _ hx => ⟨hx, rfl, rfl⟩⟩

theorem new_kept (h : Rep m S) (X : Nat → Prop) : Kept X m S (new m).1 S :=
  ⟨(new_rep h).1, Nat.le_refl _, Nat.le_succ _, fun _ _ => rfl, fun k _ _ hx =>
    ⟨hx, rfl, by simp [new, zeroList, clear, Mem.setNext, Mem.setPrev, Mem.setLen, Mem.setInited, upd]⟩⟩

theorem front_kept (h : Rep m S) {l : Nat} (hl : l < m.freshL) (X : Nat → Prop) : Kept X m S (front m l).1 S := by
  unfold front
  split
  · exact .refl h
  · exact (lazyInit_kept h hl X).1

theorem back_kept (h : Rep m S) {l : Nat} (hl : l < m.freshL) (X : Nat → Prop) : Kept X m S (back m l).1 S := by
  unfold back
  split
  · exact .refl h
  · exact (lazyInit_kept h hl X).1

theorem lazyInit_inited {l l' : Nat} (h : m.inited l = true) : (lazyInit m l').inited l = true := by
  unfold lazyInit
  split
  · exact h
  · simp [clear, Mem.setInited, upd]
    exact .inr h

theorem front_inited {l l' : Nat} (h : m.inited l = true) : (front m l').1.inited l = true := by
  unfold front
  split
  · exact h
  · exact lazyInit_inited h

theorem back_inited {l l' : Nat} (h : m.inited l = true) : (back m l').1.inited l = true := by
  unfold back
  split
  · exact h
  · exact lazyInit_inited h

theorem atBack_kept (h : Rep m S) {l : Nat} (hi : m.inited l = true) {v : T} {n : Nat} (e : insertValue m l v (m.prev (.root l)) = some (m', n)) :
    ∃ S', Kept (· = l) m S m' S' := by
  obtain ⟨_, h5⟩ := h.links hi (xs := S l) (ys := []) (by simp)
  rw [headP_nil] at h5
  rw [h5] at e
  exact insertValue_kept h hi (ys := []) (by simp) e

theorem atFront_kept (h : Rep m S) {l : Nat} (hi : m.inited l = true) {v : T} {n : Nat} (e : insertValue m l v (some (.root l)) = some (m', n)) :
    ∃ S', Kept (· = l) m S m' S' :=
  insertValue_kept h hi (xs := []) (ys := S l) (by simp) (by simpa using e)

theorem after_kept (h : Rep m S) {l mark : Nat} (hm : mark ∈ S l) {v : T} {n : Nat} (e : insertValue m l v (some (.node mark)) = some (m', n)) :
    ∃ S', Kept (· = l) m S m' S' := by
  obtain ⟨xs, ys, hS⟩ := List.append_of_mem hm
  exact insertValue_kept h (h.init_of_mem hm) (xs := xs ++ [mark]) (ys := ys) (by rw [hS]; simp) (by rw [lastP_concat]; exact e)

theorem before_kept (h : Rep m S) {l mark : Nat} (hm : mark ∈ S l) {v : T} {n : Nat}
    (e : insertValue m l v (m.prev (.node mark)) = some (m', n)) : ∃ S', Kept (· = l) m S m' S' := by
  obtain ⟨xs, ys, hS⟩ := List.append_of_mem hm
  obtain ⟨_, h5⟩ := h.links (h.init_of_mem hm) (xs := xs) (ys := mark :: ys) hS
  rw [headP_cons] at h5
  rw [h5] at e
  exact insertValue_kept h (h.init_of_mem hm) hS e

theorem pushBack_kept (h : Rep m S) {l : Nat} (hl : l < m.freshL) {v : T} {n : Nat} (e : pushBack m l v = some (m', n)) :
    ∃ S', Kept (· = l) m S m' S' := by
  obtain ⟨h1, h2⟩ := lazyInit_kept h hl (· = l)
  obtain ⟨S', h3⟩ := atBack_kept h1.rep h2 e
  exact ⟨S', h1.trans h3⟩

theorem pushFront_kept (h : Rep m S) {l : Nat} (hl : l < m.freshL) {v : T} {n : Nat} (e : pushFront m l v = some (m', n)) :
    ∃ S', Kept (· = l) m S m' S' := by
  obtain ⟨h1, h2⟩ := lazyInit_kept h hl (· = l)
  obtain ⟨S', h3⟩ := atFront_kept h1.rep h2 e
  exact ⟨S', h1.trans h3⟩

/-- A loop whose function keeps what is outside `X`. -/
theorem rangeLoop_kept {body : Mem T → A → Ptr → Option (Mem T × A × Bool)} {B : Nat}
    (hb : ∀ m S a p m' a' c, Rep m S → B ≤ m.freshL → body m a p = some (m', a', c) → ∃ S', Kept X m S m' S') :
    ∀ (fuel : Nat) {m m' : Mem T} {S : Nat → List Nat} {a a' : A} {p : Option Ptr} {c : Bool}, Rep m S → B ≤ m.freshL →
      rangeLoop body fuel m a p = some (m', a', c) → ∃ S', Kept X m S m' S' := by
  intro fuel
  induction fuel with
  | zero => intro m m' S a a' p c _ _ e; simp [rangeLoop] at e
  | succ k ih =>
    intro m m' S a a' p c h hB e
    cases p with
    | none => simp only [rangeLoop, Option.some.injEq, Prod.mk.injEq] at e; obtain ⟨rfl, _⟩ := e; exact ⟨S, .refl h⟩
    | some p =>
      simp only [rangeLoop, Option.bind_eq_bind, Option.bind_eq_some_iff] at e
      obtain ⟨⟨m1, a1, c1⟩, e1, e⟩ := e
      obtain ⟨S1, k1⟩ := hb m S a p m1 a1 c1 h hB e1
      cases c1 with
      | false =>
        simp only [Bool.false_eq_true, if_false, Option.some.injEq, Prod.mk.injEq] at e
        obtain ⟨rfl, _⟩ := e
        exact ⟨S1, k1⟩
      | true =>
        simp only [if_true] at e
        obtain ⟨S2, k2⟩ := ih k1.rep (Nat.le_trans hB k1.freshL) e
        exact ⟨S2, k1.trans k2⟩

theorem range_kept {body : Mem T → A → Ptr → Option (Mem T × A × Bool)} {B l : Nat}
    (hb : ∀ m S a p m' a' c, Rep m S → B ≤ m.freshL → body m a p = some (m', a', c) → ∃ S', Kept X m S m' S')
    {fuel : Nat} {a a' : A} {c : Bool} (h : Rep m S) (hB : B ≤ m.freshL) (hl : l < m.freshL)
    (e : range body fuel m a l = some (m', a', c)) : ∃ S', Kept X m S m' S' := by
  unfold range at e
  have k1 := front_kept h hl X
  obtain ⟨S', k2⟩ := rangeLoop_kept hb fuel k1.rep (Nat.le_trans hB k1.freshL) e
  exact ⟨S', k1.trans k2⟩

theorem pushLoop_kept {l : Nat} (at_ : Mem T → Option Ptr) (nx : Mem T → Ptr → Option Ptr) (loop : Nat → Mem T → Option Ptr → Option (Mem T))
    (h0 : ∀ m p, loop 0 m p = some m)
    (h1 : ∀ i m p, loop (i + 1) m p = (do
      let p ← p
      let v ← value m p
      let (m, _) ← insertValue m l v (at_ m)
      loop i m (nx m p)))
    (P : Mem T → (Nat → List Nat) → Prop)
    (hi : ∀ m S v m' n, Rep m S → P m S → insertValue m l v (at_ m) = some (m', n) → ∃ S', Kept (· = l) m S m' S' ∧ P m' S') :
    ∀ (i : Nat) {m m' : Mem T} {S : Nat → List Nat} {p : Option Ptr}, Rep m S → P m S → loop i m p = some m' → ∃ S', Kept (· = l) m S m' S' := by
  intro i
  induction i with
  | zero => intro m m' S p h _ e; rw [h0] at e; cases e; exact ⟨S, .refl h⟩
  | succ i ih =>
    intro m m' S p h hP e
    rw [h1] at e
    simp only [Option.bind_eq_bind, Option.bind_eq_some_iff] at e
    obtain ⟨q, _, v, _, ⟨m1, n⟩, e1, e⟩ := e
    obtain ⟨S1, k1, hP1⟩ := hi m S v m1 n h hP e1
    obtain ⟨S2, k2⟩ := ih k1.rep hP1 e
    exact ⟨S2, k1.trans k2⟩

theorem pushBackList_kept (h : Rep m S) {l o : Nat} (hl : l < m.freshL) (ho : o < m.freshL) (e : pushBackList m l o = some m') :
    ∃ S', Kept (· = l) m S m' S' := by
  obtain ⟨h1, h2⟩ := lazyInit_kept h hl (· = l)
  have h3 := front_kept h1.rep (Nat.lt_of_lt_of_le ho h1.freshL) (· = l)
  obtain ⟨S', h4⟩ := pushLoop_kept (l := l) (fun m => m.prev (.root l)) (fun m p => elNext m p) (pushBackListLoop l) (fun _ _ => rfl) (fun _ _ _ => rfl)
    (fun m _ => m.inited l = true) (fun m S v m' n h hi e => by
      obtain ⟨S', k⟩ := atBack_kept h hi e
      refine ⟨S', k, ?_⟩
      obtain ⟨_, h5⟩ := h.links hi (xs := S l) (ys := []) (by simp)
      rw [headP_nil] at h5
      obtain ⟨m1, e1, _, _, _, _, _, hin⟩ := insertValue_rep h hi (xs := S l) (ys := []) (by simp) v
      rw [h5, e1] at e
      cases e
      exact hin l hi)
    _ h3.rep (front_inited h2) e
  exact ⟨S', (h1.trans h3).trans h4⟩

theorem pushFrontList_kept (h : Rep m S) {l o : Nat} (hl : l < m.freshL) (ho : o < m.freshL) (e : pushFrontList m l o = some m') :
    ∃ S', Kept (· = l) m S m' S' := by
  obtain ⟨h1, h2⟩ := lazyInit_kept h hl (· = l)
  have h3 := back_kept h1.rep (Nat.lt_of_lt_of_le ho h1.freshL) (· = l)
  obtain ⟨S', h4⟩ := pushLoop_kept (l := l) (fun m => some (.root l)) (fun m p => elPrev m p) (pushFrontListLoop l) (fun _ _ => rfl) (fun _ _ _ => rfl)
    (fun m _ => m.inited l = true) (fun m S v m' n h hi e => by
      obtain ⟨S', k⟩ := atFront_kept h hi e
      refine ⟨S', k, ?_⟩
      obtain ⟨m1, e1, _, _, _, _, _, hin⟩ := insertValue_rep h hi (xs := []) (ys := S l) (by simp) v
      rw [lastP_nil] at e1
      rw [e1] at e
      cases e
      exact hin l hi)
    _ h3.rep (back_inited h2) e
  exact ⟨S', (h1.trans h3).trans h4⟩

/-- The mark stays in its list while values are inserted after it. -/
theorem after_mark (h : Rep m S) {l mark : Nat} (hm : mark ∈ S l) {v : T} {n : Nat} (e : insertValue m l v (some (.node mark)) = some (m', n)) :
    ∃ S', Kept (· = l) m S m' S' ∧ mark ∈ S' l := by
  obtain ⟨xs, ys, hS⟩ := List.append_of_mem hm
  have hS' : S l = (xs ++ [mark]) ++ ys := by rw [hS]; simp
  obtain ⟨m1, e1, hr, _⟩ := insertValue_rep h (h.init_of_mem hm) hS' v
  rw [lastP_concat, e] at e1
  cases e1
  obtain ⟨S1, k⟩ := after_kept h hm e
  refine ⟨_, ⟨hr, k.fresh, k.freshL, fun l' hl => by simp [upd, hl], fun j hj hjo hx => ?_⟩, by simp [upd]⟩
  refine ⟨?_, (k.keep j hj hjo hx).2⟩
  rintro _ rfl
  have := hx _ rfl
  rw [hS'] at this
  simp only [List.mem_append, not_or] at this
  simp [upd]
  simp at this
  exact ⟨this.1.1, this.1.2, by omega, this.2⟩

theorem pushBackListTo_kept (h : Rep m S) {l o mark : Nat} (ho : o < m.freshL) (hm : m.owner (.node mark) = some l → mark ∈ S l)
    (e : pushBackListTo m l o mark = some m') : ∃ S', Kept (· = l) m S m' S' := by
  unfold pushBackListTo at e
  split at e
  · cases e; exact ⟨S, .refl h⟩
  · next hc =>
    have h3 := front_kept h ho (· = l)
    obtain ⟨S', h4⟩ := pushLoop_kept (l := l) (fun _ => some (.node mark)) (fun m p => elNext m p) (pushBackListToLoop l mark) (fun _ _ => rfl) (fun _ _ _ => rfl)
      (fun _ S => mark ∈ S l) (fun m S v m' n h hi e => after_mark h hi e) _ h3.rep (hm (by simpa using hc)) e
    exact ⟨S', h3.trans h4⟩

theorem pushFrontListTo_kept (h : Rep m S) {l o mark : Nat} (ho : o < m.freshL) (hm : m.owner (.node mark) = some l → mark ∈ S l)
    (e : pushFrontListTo m l o mark = some m') : ∃ S', Kept (· = l) m S m' S' := by
  unfold pushFrontListTo at e
  split at e
  · cases e; exact ⟨S, .refl h⟩
  · next hc =>
    have h3 := back_kept h ho (· = l)
    obtain ⟨S', h4⟩ := pushLoop_kept (l := l) (fun _ => some (.node mark)) (fun m p => elPrev m p) (pushFrontListToLoop l mark) (fun _ _ => rfl) (fun _ _ _ => rfl)
      (fun _ S => mark ∈ S l) (fun m S v m' n h hi e => after_mark h hi e) _ h3.rep (hm (by simpa using hc)) e
    exact ⟨S', h3.trans h4⟩

/-- The copying loops of `Sort`. -/
theorem copy_kept {l B : Nat} (hl : l < B) {m : Mem T} {S : Nat → List Nat} {p : Ptr} {m' : Mem T} {a' : Unit} {c : Bool} (h : Rep m S) (hB : B ≤ m.freshL)
    (e : (do
      let v ← value m p
      let (m, _) ← pushBack m l v
      some (m, (), true)) = some (m', a', c)) : ∃ S', Kept (· = l) m S m' S' := by
  simp only [Option.bind_eq_bind, Option.bind_eq_some_iff] at e
  obtain ⟨v, _, ⟨m1, n⟩, e1, e⟩ := e
  simp only [Option.some.injEq, Prod.mk.injEq] at e
  obtain ⟨rfl, _⟩ := e
  exact pushBack_kept h (Nat.lt_of_lt_of_le hl hB) e1

theorem sort_kept (less : T → T → Bool) : ∀ (fuel : Nat) {m m' : Mem T} {S : Nat → List Nat} {l : Nat}, Rep m S → l < m.freshL →
    sort less fuel m l = some m' → (∃ S', Kept (fun x => x = l ∨ m.freshL ≤ x) m S m' S') ∧
      (1 < (S l).length → ∀ k ∈ S l, m'.owner (.node k) = some l ∧ m'.next (.node k) = m.next (.node k)) := by
  intro fuel
  induction fuel with
  | zero => intro m m' S l _ _ e; simp [sort] at e
  | succ fuel ih =>
    intro m m' S l h hl e
    unfold sort at e
    split at e
    · next hc =>
      cases e
      refine ⟨⟨S, .refl h⟩, fun hlen => ?_⟩
      rw [h.len] at hc
      omega
    · simp only [Option.bind_eq_bind, Option.bind_eq_some_iff] at e
      obtain ⟨f, hf, pivot, hp, f2, hf2, ⟨m4, _, _⟩, e4, m5, e5, m6, e6, ⟨m8, _, _⟩, e8, ⟨m9, _⟩, e9, ⟨m10, _, _⟩, e10, e⟩ := e
      simp only [Option.some.injEq] at e
      subst e
      -- the new lists only
      generalize hX : (fun x => m.freshL ≤ x) = X
      have k1 := front_kept h hl X
      have k2 := new_kept k1.rep X
      have k3 := new_kept k2.rep X
      have k123 := (k1.trans k2).trans k3
      have k4 := front_kept k3.rep (Nat.lt_of_lt_of_le hl k123.freshL) X
      have k14 := k123.trans k4
      have hsm : m.freshL ≤ (new (front m l).1).2 := k1.freshL
      have hsm' : (new (front m l).1).2 < (front (new (new (front m l).1).1).1 l).1.freshL :=
        Nat.lt_of_lt_of_le (Nat.lt_succ_self _) (k3.trans k4).freshL
      have hlg : m.freshL ≤ (new (new (front m l).1).1).2 := (k1.trans k2).freshL
      have hlg' : (new (new (front m l).1).1).2 < (front (new (new (front m l).1).1).1 l).1.freshL :=
        Nat.lt_of_lt_of_le (Nat.lt_succ_self _) k4.freshL
      generalize (front (new (new (front m l).1).1).1 l) = fr at *
      generalize (new (new (front m l).1).1).2 = lg at *
      generalize (new (front m l).1).2 = sm at *
      obtain ⟨S5, k5⟩ := rangeLoop_kept (X := X) (B := fr.1.freshL) (fun m S a p m' a' c h hB e => by
        simp only [Option.bind_eq_some_iff] at e
        obtain ⟨v, _, e⟩ := e
        split at e
        · simp only [Option.bind_eq_some_iff, Option.some.injEq, Prod.mk.injEq] at e
          obtain ⟨⟨m1, n⟩, e1, rfl, _⟩ := e
          obtain ⟨S', k⟩ := pushBack_kept h (Nat.lt_of_lt_of_le hsm' hB) e1
          exact ⟨S', k.mono (by rintro _ rfl; rw [← hX]; exact hsm)⟩
        · simp only [Option.bind_eq_some_iff, Option.some.injEq, Prod.mk.injEq] at e
          obtain ⟨⟨m1, n⟩, e1, rfl, _⟩ := e
          obtain ⟨S', k⟩ := pushBack_kept h (Nat.lt_of_lt_of_le hlg' hB) e1
          exact ⟨S', k.mono (by rintro _ rfl; rw [← hX]; exact hlg)⟩) fuel k4.rep (Nat.le_refl _) e4
      have k15 := k14.trans k5
      obtain ⟨⟨S6, k6⟩, _⟩ := ih k5.rep (Nat.lt_of_lt_of_le hsm' k5.freshL) e5
      have k16 := k15.trans (k6.mono (Y := X) (by
        rintro x (rfl | hx)
        · rw [← hX]; exact hsm
        · rw [← hX]; exact Nat.le_trans k15.freshL hx))
      obtain ⟨⟨S7, k7⟩, _⟩ := ih k6.rep (Nat.lt_of_lt_of_le hlg' (Nat.le_trans k5.freshL k6.freshL)) e6
      have k17 := k16.trans (k7.mono (Y := X) (by
        rintro x (rfl | hx)
        · rw [← hX]; exact hlg
        · rw [← hX]; exact Nat.le_trans k16.freshL hx))
      -- the list itself
      have k8 := clear_kept k7.rep (l := l) (Nat.lt_of_lt_of_le hl k17.freshL)
      have hB : l < (clear m6 l).freshL := Nat.lt_of_lt_of_le hl k17.freshL
      obtain ⟨S9, k9⟩ := range_kept (X := (· = l)) (B := (clear m6 l).freshL) (l := sm) (fun m S a p m' a' c h hB' e => copy_kept hB h hB' e)
        k8.rep (Nat.le_refl _) (Nat.lt_of_lt_of_le hsm' (Nat.le_trans k5.freshL (Nat.le_trans k6.freshL (Nat.le_trans k7.freshL k8.freshL)))) e8
      obtain ⟨S10, k10⟩ := pushBack_kept k9.rep (Nat.lt_of_lt_of_le hB k9.freshL) e9
      obtain ⟨S11, k11⟩ := range_kept (X := (· = l)) (B := (clear m6 l).freshL) (l := lg) (fun m S a p m' a' c h hB' e => copy_kept hB h hB' e)
        k10.rep (k9.trans k10).freshL
        (Nat.lt_of_lt_of_le hlg' (Nat.le_trans k5.freshL (Nat.le_trans k6.freshL (Nat.le_trans k7.freshL (Nat.le_trans k8.freshL (k9.trans k10).freshL))))) e10
      have ke := (k9.trans k10).trans k11
      refine ⟨⟨S11, ?_⟩, fun _ k hk => ?_⟩
      · exact ((k17.mono (by rintro x hx; rw [← hX] at hx; exact .inr hx)).trans (k8.mono (by rintro x rfl; exact .inl rfl))).trans
          (ke.mono (by rintro x rfl; exact .inl rfl))
      · have ho := h.owner l k hk
        obtain ⟨_, a2, a3⟩ := k17.keep k (h.alloc l k hk) (by rw [ho]; simp) (fun l' hl' hc => by
          have := h.owner l' k hc
          rw [ho] at this
          injection this with this
          subst this
          rw [← hX] at hl'
          exact Nat.not_lt_of_le hl' hl)
        have hlt := Nat.lt_of_lt_of_le (h.alloc l k hk) k17.fresh
        obtain ⟨_, b2, b3⟩ := ke.keep k hlt (by show m6.owner (.node k) ≠ none; rw [a2, ho]; simp) (by rintro _ rfl; simp [upd])
        have c3 : (clear m6 l).next (.node k) = m6.next (.node k) := by simp [clear, Mem.setNext, Mem.setPrev, Mem.setLen, Mem.setInited, upd]
        exact ⟨by rw [b2]; show m6.owner (.node k) = _; rw [a2, ho], by rw [b3, c3, a3]⟩

theorem Sim.ownedIn (h : Sim m s S) {e l : Nat} (he : s.Usable e) (ho : m.owner (.node e) = some l) : e ∈ S l := by
  rcases h.owner e l he.1 ho with h' | h'
  · exact h.memS h'.2
  · exact (he.2 h').elim

/-- Every call that the specification speaks about leaves the elements outside the lists alone. -/
theorem exec_kept (h : Sim m s S) {op : Op T} (hv : s.Valid op) {fuel : Nat} {r : Res T} (e : exec fuel m op = some (m', r)) :
    ∃ S', Kept (fun _ => True) m S m' S' := by
  have up : ∀ {X : Nat → Prop}, (∃ S', Kept X m S m' S') → ∃ S', Kept (fun _ => True) m S m' S' := fun ⟨S', k⟩ => ⟨S', k.mono fun _ _ => trivial⟩
  have same : m' = m → ∃ S', Kept (fun _ => True) m S m' S' := by rintro rfl; exact ⟨S, .refl h.rep⟩
  have L : ∀ {l}, s.lists l → l < m.freshL := fun hl => h.listAlloc _ hl
  cases op <;> simp only [exec, Option.bind_eq_bind, Option.bind_eq_some_iff, Option.some.injEq, Prod.mk.injEq] at e
  case new => obtain ⟨rfl, _⟩ := e; exact ⟨S, new_kept h.rep _⟩
  case zero => obtain ⟨rfl, _⟩ := e; exact ⟨S, zeroList_kept h.rep _⟩
  case clear l => obtain ⟨rfl, _⟩ := e; exact up ⟨_, clear_kept h.rep (L hv)⟩
  case pushFront l v => obtain ⟨⟨m1, n⟩, e1, rfl, _⟩ := e; exact up (pushFront_kept h.rep (L hv) e1)
  case pushBack l v => obtain ⟨⟨m1, n⟩, e1, rfl, _⟩ := e; exact up (pushBack_kept h.rep (L hv) e1)
  case insertBefore l v mark =>
    obtain ⟨⟨m1, n⟩, e1, rfl, _⟩ := e
    unfold Dllist.insertBefore at e1
    split at e1
    · cases e1; exact same rfl
    · next hc =>
      simp only [Option.bind_eq_bind, Option.bind_eq_some_iff] at e1
      obtain ⟨⟨m2, n2⟩, e2, e3⟩ := e1
      cases e3
      exact up (before_kept h.rep (h.ownedIn hv.2 (by simpa using hc)) e2)
  case insertAfter l v mark =>
    obtain ⟨⟨m1, n⟩, e1, rfl, _⟩ := e
    unfold Dllist.insertAfter at e1
    split at e1
    · cases e1; exact same rfl
    · next hc =>
      simp only [Option.bind_eq_bind, Option.bind_eq_some_iff] at e1
      obtain ⟨⟨m2, n2⟩, e2, e3⟩ := e1
      cases e3
      exact up (after_kept h.rep (h.ownedIn hv.2 (by simpa using hc)) e2)
  case remove l e' =>
    obtain ⟨⟨m1, v⟩, e1, rfl, _⟩ := e
    unfold Dllist.lRemove at e1
    by_cases hc : m.owner (.node e') = some l
    · simp only [if_pos hc, Option.bind_eq_bind, Option.bind_eq_some_iff, Option.some.injEq, Prod.mk.injEq] at e1
      obtain ⟨m2, e2, rfl, _⟩ := e1
      obtain ⟨S', k, _⟩ := remove_kept h.rep (h.ownedIn hv.2 hc) e2
      exact up ⟨S', k⟩
    · simp only [if_neg hc, Option.bind_eq_bind, Option.bind_some, Option.some.injEq, Prod.mk.injEq] at e1
      exact same e1.1.symm
  case moveToFront l e' =>
    obtain ⟨m1, e1, rfl, _⟩ := e
    unfold Dllist.moveToFront at e1
    split at e1
    · cases e1; exact same rfl
    · next hc =>
      simp only [not_or, ne_eq, Classical.not_not] at hc
      have hm := h.ownedIn hv.2 hc.1
      rw [lazyInit, if_pos (h.rep.init_of_mem hm)] at e1
      exact up (move_kept h.rep hm (us := []) (ws := (S l).erase e') rfl (by simpa using e1))
  case moveToBack l e' =>
    obtain ⟨m1, e1, rfl, _⟩ := e
    unfold Dllist.moveToBack at e1
    split at e1
    · cases e1; exact same rfl
    · next hc =>
      simp only [not_or, ne_eq, Classical.not_not] at hc
      have hm := h.ownedIn hv.2 hc.1
      have hi := h.rep.init_of_mem hm
      rw [lazyInit, if_pos hi] at e1
      obtain ⟨_, h5⟩ := h.rep.links hi (xs := S l) (ys := []) (by simp)
      rw [headP_nil] at h5
      have hne : lastP l (S l) ≠ .node e' := fun h' => hc.2 (by rw [h5, h'])
      have hlast : lastP l (S l) = lastP l ((S l).erase e') := by
        obtain ⟨xs, ys, hS, _, _, h4⟩ := split_nodup (h.rep.nodup l) hm
        rw [h4, hS]
        rcases eq_nil_or_snoc ys with rfl | ⟨t, b, rfl⟩
        · rw [hS, lastP_concat] at hne; exact absurd rfl hne
        · rw [← List.cons_append, ← List.append_assoc, ← List.append_assoc, lastP_concat, lastP_concat]
      dsimp only at e1
      rw [h5, hlast] at e1
      exact up (move_kept h.rep hm (us := (S l).erase e') (ws := []) (by simp) e1)
  case moveBefore l e' mark =>
    obtain ⟨m1, e1, rfl, _⟩ := e
    unfold Dllist.moveBefore at e1
    split at e1
    · cases e1; exact same rfl
    · next hc =>
      simp only [not_or, ne_eq, Classical.not_not] at hc
      have hm := h.ownedIn hv.2.1 hc.1
      have hk := h.ownedIn hv.2.2 hc.2.2
      have hi := h.rep.init_of_mem hm
      have hke : mark ∈ (S l).erase e' := (List.mem_erase_of_ne (Ne.symm hc.2.1)).2 hk
      obtain ⟨xs, ys, hS, x1, x2, x3⟩ := split_nodup (h.rep.nodup l) hk
      obtain ⟨_, h5⟩ := h.rep.links hi (xs := xs) (ys := mark :: ys) hS
      rw [headP_cons] at h5
      rw [h5] at e1
      by_cases hx : lastP l xs = .node e'
      · -- `e` is directly before the mark
        rw [hx] at e1
        simp [move] at e1
        subst e1
        exact same rfl
      · have : ∃ us ws, (S l).erase e' = us ++ ws ∧ lastP l us = lastP l xs := by
          by_cases hex : e' ∈ xs
          · obtain ⟨p, q, rfl, p1, p2, p3⟩ := split_nodup (List.Nodup.sublist (by rw [hS]; exact List.sublist_append_left _ _) (h.rep.nodup l)) hex
            refine ⟨p ++ q, mark :: ys, ?_, ?_⟩
            · rw [hS, List.erase_append_left _ hex, p3]
            · rcases eq_nil_or_snoc q with rfl | ⟨t, b, rfl⟩
              · rw [lastP_concat] at hx; exact absurd rfl hx
              · rw [← List.cons_append, ← List.append_assoc, ← List.append_assoc, lastP_concat, lastP_concat]
          · exact ⟨xs, (mark :: ys).erase e', by rw [hS, List.erase_append_right _ hex], rfl⟩
        obtain ⟨us, ws, u1, u2⟩ := this
        rw [← u2] at e1
        exact up (move_kept h.rep hm u1 e1)
  case moveAfter l e' mark =>
    obtain ⟨m1, e1, rfl, _⟩ := e
    unfold Dllist.moveAfter at e1
    split at e1
    · cases e1; exact same rfl
    · next hc =>
      simp only [not_or, ne_eq, Classical.not_not] at hc
      have hm := h.ownedIn hv.2.1 hc.1
      have hk := h.ownedIn hv.2.2 hc.2.2
      have hke : mark ∈ (S l).erase e' := (List.mem_erase_of_ne (Ne.symm hc.2.1)).2 hk
      obtain ⟨us, ws, hu⟩ := List.append_of_mem hke
      exact up (move_kept h.rep hm (us := us ++ [mark]) (ws := ws) (by rw [hu]; simp) (by rw [lastP_concat]; exact e1))
  case swap l a b =>
    obtain ⟨m1, e1, rfl, _⟩ := e
    by_cases hc : m.owner (.node a) = some l ∧ m.owner (.node b) = some l
    · exact up (swap_kept h.rep (h.ownedIn hv.2.1 hc.1) (h.ownedIn hv.2.2 hc.2) e1)
    · unfold Dllist.swap at e1
      dsimp only at e1
      rw [if_pos (by tauto)] at e1
      cases e1; exact same rfl
  case elRemove e' =>
    obtain ⟨⟨m1, v⟩, e1, rfl, _⟩ := e
    unfold Dllist.elRemove at e1
    have clean : ∀ {m2 : Mem T} {S2 : Nat → List Nat}, Kept (fun _ => True) m S m2 S2 → (∀ l, e' ∉ S2 l) →
        (m.owner (.node e') = none ∨ ∃ l, e' ∈ S l) → ∃ S', Kept (fun _ => True) m S ((m2.setNext (.node e') none).setPrev (.node e') none) S' := by
      intro m2 S2 k hn hor
      refine ⟨S2, ⟨⟨k.rep.zero, ?_, k.rep.len, k.rep.nodup, k.rep.owner, k.rep.alloc, k.rep.unalloc, k.rep.vals, k.rep.listUnalloc⟩, k.fresh, k.freshL,
        k.other, fun j hj hjo hx => ?_⟩⟩
      · have hf : ∀ l, Ptr.node e' ∉ cyc l (S2 l) := by
          intro l hc
          rcases mem_cyc.1 hc with h' | ⟨n, hn', h'⟩
          · cases h'
          · injection h' with h'; subst h'; exact hn l hn'
        intro l hl
        refine Lnk_congr _ ?_ ?_ (k.rep.lnk l hl)
        · intro x hx
          have : x ≠ .node e' := by rintro rfl; exact hf l (List.dropLast_subset _ hx)
          simp [Mem.setNext, Mem.setPrev, upd, this]
        · intro x hx
          have : x ≠ .node e' := by rintro rfl; exact hf l (List.mem_of_mem_tail hx)
          simp [Mem.setNext, Mem.setPrev, upd, this]
      · obtain ⟨a1, a2, a3⟩ := k.keep j hj hjo hx
        refine ⟨a1, a2, ?_⟩
        have : j ≠ e' := by
          rintro rfl
          rcases hor with h1 | ⟨l, h1⟩
          · exact hjo h1
          · exact hx l trivial h1
        simpa [Mem.setNext, Mem.setPrev, upd, this] using a3
    cases ho : m.owner (.node e') with
    | none =>
      simp only [ho, Option.bind_eq_bind, Option.bind_some, Option.some.injEq, Prod.mk.injEq] at e1
      obtain ⟨rfl, _⟩ := e1
      exact clean (.refl h.rep) (fun l hc => by rw [h.rep.owner l e' hc] at ho; cases ho) (.inl ho)
    | some l =>
      simp only [ho, Option.bind_eq_bind, Option.bind_eq_some_iff, Option.some.injEq, Prod.mk.injEq] at e1
      obtain ⟨m2, e2, rfl, _⟩ := e1
      have hm := h.ownedIn hv ho
      obtain ⟨S', k, hn⟩ := remove_kept h.rep hm e2
      exact clean (k.mono fun _ _ => trivial) hn (.inr ⟨l, hm⟩)
  case elInsertBefore e' v =>
    obtain ⟨⟨m1, n⟩, e1, rfl, _⟩ := e
    unfold Dllist.elInsertBefore at e1
    cases ho : m.owner (.node e') with
    | none => rw [ho] at e1; cases e1; exact same rfl
    | some l =>
      simp only [ho, Option.bind_eq_bind, Option.bind_eq_some_iff] at e1
      obtain ⟨⟨m2, n2⟩, e2, e3⟩ := e1
      cases e3
      exact up (before_kept h.rep (h.ownedIn hv ho) e2)
  case elInsertAfter e' v =>
    obtain ⟨⟨m1, n⟩, e1, rfl, _⟩ := e
    unfold Dllist.elInsertAfter at e1
    cases ho : m.owner (.node e') with
    | none => rw [ho] at e1; cases e1; exact same rfl
    | some l =>
      simp only [ho, Option.bind_eq_bind, Option.bind_eq_some_iff] at e1
      obtain ⟨⟨m2, n2⟩, e2, e3⟩ := e1
      cases e3
      exact up (after_kept h.rep (h.ownedIn hv ho) e2)
  case elNext | elPrev | getValue | len => obtain ⟨rfl, _⟩ := e; exact same rfl
  case setValue e' v =>
    obtain ⟨rfl, _⟩ := e
    refine ⟨S, ⟨⟨h.rep.zero, h.rep.lnk, h.rep.len, h.rep.nodup, h.rep.owner, h.rep.alloc, h.rep.unalloc, fun n hn => ?_, h.rep.listUnalloc⟩,
      Nat.le_refl _, Nat.le_refl _, fun _ _ => rfl, fun _ _ _ hx => ⟨hx, rfl, rfl⟩⟩⟩
    simp only [upd]
    split
    · exact ⟨v, rfl⟩
    · exact h.rep.vals n hn
  case front l => obtain ⟨rfl, _⟩ := e; exact ⟨S, front_kept h.rep (L hv) _⟩
  case back l => obtain ⟨rfl, _⟩ := e; exact ⟨S, back_kept h.rep (L hv) _⟩
  case get l i =>
    obtain ⟨⟨m1, p⟩, e1, rfl, _⟩ := e
    unfold Dllist.get at e1
    split at e1
    · cases e1; exact same rfl
    · dsimp only at e1
      split at e1
      all_goals
        simp only [Option.bind_eq_bind, Option.bind_eq_some_iff, Option.some.injEq, Prod.mk.injEq] at e1
        obtain ⟨_, _, rfl, _⟩ := e1
        exact ⟨S, (lazyInit_kept h.rep (L hv) _).1⟩
  case slice l =>
    obtain ⟨⟨m1, vs⟩, e1, rfl, _⟩ := e
    unfold Dllist.slice at e1
    simp only [Option.bind_eq_bind, Option.bind_eq_some_iff, Option.some.injEq, Prod.mk.injEq] at e1
    obtain ⟨⟨m2, a, c⟩, e2, rfl, _⟩ := e1
    refine range_kept (B := 0) (fun m S a p m' a' c h _ e => ?_) h.rep (Nat.zero_le _) (L hv) e2
    simp only [Option.bind_eq_some_iff, Option.some.injEq, Prod.mk.injEq] at e
    obtain ⟨_, _, rfl, _⟩ := e
    exact ⟨S, .refl h⟩
  case pushBackList l o => obtain ⟨m1, e1, rfl, _⟩ := e; exact up (pushBackList_kept h.rep (L hv.1) (L hv.2) e1)
  case pushFrontList l o => obtain ⟨m1, e1, rfl, _⟩ := e; exact up (pushFrontList_kept h.rep (L hv.1) (L hv.2) e1)
  case pushBackListTo l o mark =>
    obtain ⟨m1, e1, rfl, _⟩ := e
    exact up (pushBackListTo_kept h.rep (L hv.2.1) (h.ownedIn hv.2.2.2) e1)
  case pushFrontListTo l o mark =>
    obtain ⟨m1, e1, rfl, _⟩ := e
    exact up (pushFrontListTo_kept h.rep (L hv.2.1) (h.ownedIn hv.2.2.2) e1)
  case sort l less => obtain ⟨m1, e1, rfl, _⟩ := e; exact up (sort_kept less fuel h.rep (L hv) e1).1

end Verif.Dllist
