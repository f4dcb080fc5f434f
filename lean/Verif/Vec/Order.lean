import Verif.Vec.Props
/-!
# Properties of `vec`: searching, sorting, comparing (C55–C60)
-/
namespace Verif.Vec
variable {T : Type} {E : Elt T} {g : Nat → Nat} {P : SortImpl T} {m : VMem T} {s : SState T}

/-- `lt` is a strict weak order and `eq` the equality that goes with it. -/
structure Order (lt eq : T → T → Bool) : Prop where
  irrefl : ∀ a, lt a a = false
  split : ∀ a b c, lt a c = true → lt a b = true ∨ lt b c = true
  asymm : ∀ a b, lt a b = true → lt b a = false
  eq : ∀ a b, eq a b = true ↔ lt a b = false ∧ lt b a = false

theorem Order.trans {lt eq : T → T → Bool} (o : Order lt eq) {a b c : T} (h1 : lt a b = true) (h2 : lt b c = true) :
    lt a c = true := by
  rcases o.split a c b h1 with h | h
  · exact h
  · rw [o.asymm _ _ h2] at h; cases h

/-- `lt` and `eq` are such an order on the elements of `S`; nothing is said of other elements. -/
structure OrderOn (lt eq : T → T → Bool) (S : T → Prop) : Prop where
  irrefl : ∀ a, S a → lt a a = false
  split : ∀ a b c, S a → S b → S c → lt a c = true → lt a b = true ∨ lt b c = true
  asymm : ∀ a b, S a → S b → lt a b = true → lt b a = false
  eq : ∀ a b, S a → S b → (eq a b = true ↔ lt a b = false ∧ lt b a = false)

theorem Order.on {lt eq : T → T → Bool} (o : Order lt eq) (S : T → Prop) : OrderOn lt eq S :=
  ⟨fun a _ => o.irrefl a, fun a b c _ _ _ => o.split a b c, fun a b _ _ => o.asymm a b, fun a b _ _ => o.eq a b⟩

theorem OrderOn.mono {lt eq : T → T → Bool} {S S' : T → Prop} (o : OrderOn lt eq S) (h : ∀ a, S' a → S a) :
    OrderOn lt eq S' :=
  ⟨fun a ha => o.irrefl a (h a ha), fun a b c ha hb hc => o.split a b c (h a ha) (h b hb) (h c hc),
    fun a b ha hb => o.asymm a b (h a ha) (h b hb), fun a b ha hb => o.eq a b (h a ha) (h b hb)⟩

open Classical in
/-- An order on `S` is the restriction of an order of the type: all other elements come last. -/
theorem OrderOn.extend {lt eq : T → T → Bool} {S : T → Prop} (o : OrderOn lt eq S) :
    ∃ lt' eq' : T → T → Bool, Order lt' eq' ∧ ∀ a b, S a → S b → lt' a b = lt a b ∧ eq' a b = eq a b := by
  let lt' : T → T → Bool := fun a b => if S a then (if S b then lt a b else true) else false
  have ltS : ∀ {a b}, S a → S b → lt' a b = lt a b := by intro a b ha hb; simp [lt', ha, hb]
  have ltL : ∀ {a b}, ¬ S a → lt' a b = false := by intro a b ha; simp [lt', ha]
  have ltR : ∀ {a b}, S a → ¬ S b → lt' a b = true := by intro a b ha hb; simp [lt', ha, hb]
  refine ⟨lt', fun a b => !lt' a b && !lt' b a, ⟨?_, ?_, ?_, ?_⟩, ?_⟩
  · intro a
    by_cases ha : S a
    · rw [ltS ha ha]; exact o.irrefl a ha
    · exact ltL ha
  · intro a b c h
    by_cases ha : S a
    · by_cases hb : S b
      · by_cases hc : S c
        · rw [ltS ha hb, ltS hb hc]; rw [ltS ha hc] at h; exact o.split a b c ha hb hc h
        · exact .inr (ltR hb hc)
      · exact .inl (ltR ha hb)
    · rw [ltL ha] at h; cases h
  · intro a b h
    by_cases hb : S b
    · by_cases ha : S a
      · rw [ltS hb ha]; rw [ltS ha hb] at h; exact o.asymm a b ha hb h
      · rw [ltL ha] at h; cases h
    · exact ltL hb
  · intro a b; simp
  · intro a b ha hb
    refine ⟨ltS ha hb, ?_⟩
    show (!lt' a b && !lt' b a) = eq a b
    rw [Bool.eq_iff_iff, o.eq a b ha hb, ltS ha hb, ltS hb ha]
    simp

theorem three_neg (lt eq : T → T → Bool) (a b : T) : three lt eq a b < 0 ↔ lt a b = true := by
  unfold three; split
  · simp [*]
  · split <;> simp [*]

theorem three_zero (lt eq : T → T → Bool) (a b : T) : three lt eq a b = 0 ↔ lt a b = false ∧ eq a b = true := by
  unfold three; split
  · simp [*]
  · split <;> simp_all

theorem three_pos (lt eq : T → T → Bool) (a b : T) : three lt eq a b > 0 ↔ lt a b = false ∧ eq a b = false := by
  unfold three; split
  · simp [*]
  · split <;> simp_all

theorem three?_some (lt eq : T → T → Bool) (a b : T) : three? (some lt) (some eq) a b = some (three lt eq a b) := by
  simp only [three?, three, Option.bind_eq_bind, Option.bind_some]
  split <;> rfl

theorem OrderOn.swo {lt eq : T → T → Bool} {S : T → Prop} (o : OrderOn lt eq S) :
    SWO (fun a b : {x // S x} => three lt eq a b) := by
  refine ⟨?_, ?_, ?_⟩
  · rintro ⟨a, ha⟩; rw [three_neg, o.irrefl a ha]; simp
  · rintro ⟨a, ha⟩ ⟨b, hb⟩ ⟨c, hc⟩; simp only [three_neg]
    intro h1 h2
    rcases o.split a c b ha hc hb h1 with h | h
    · exact h
    · rw [o.asymm b c hb hc h2] at h; cases h
  · rintro ⟨a, ha⟩ ⟨b, hb⟩ ⟨c, hc⟩; simp only [three_neg]
    intro h1 h2 h3 h4
    constructor
    · intro h; rcases o.split a b c ha hb hc h with h | h <;> contradiction
    · intro h; rcases o.split c b a hc hb ha h with h | h <;> contradiction

/-! ## C55: binary search -/

theorem binLoop_spec (c : T → Int) (l : List T)
    (hmono : ∀ (i j : Nat) (a b : T), i < j → l[i]? = some a → l[j]? = some b → c b < 0 → c a < 0) :
    ∀ n i j, j - i ≤ n → i ≤ j → j ≤ l.length → (∀ k x, k < i → l[k]? = some x → c x < 0) →
    (∀ k x, j ≤ k → l[k]? = some x → ¬ c x < 0) →
    ∃ r, binLoop (fun x => some (c x)) l n i j = some r ∧ r ≤ l.length ∧
      (∀ k x, k < r → l[k]? = some x → c x < 0) ∧ (∀ k x, r ≤ k → l[k]? = some x → ¬ c x < 0) := by
  intro n
  induction n with
  | zero =>
    intro i j h1 h2 h3 h4 h5
    unfold binLoop
    rw [if_neg (by omega)]
    exact ⟨i, rfl, by omega, h4, fun k x hk => h5 k x (by omega)⟩
  | succ n ih =>
    intro i j h1 h2 h3 h4 h5
    unfold binLoop
    by_cases hij : i < j
    · rw [if_pos hij]
      have hh : (i + j) / 2 < l.length := by omega
      simp only [List.getElem?_eq_getElem hh, Option.bind_eq_bind, Option.bind_some]
      have hg := List.getElem?_eq_getElem hh
      split
      · next hc =>
        apply ih ((i + j) / 2 + 1) j (by omega) (by omega) h3 _ h5
        intro k x hk hx
        rcases Nat.lt_or_ge k ((i + j) / 2) with h | h
        · exact hmono k _ x _ h hx hg hc
        · have : k = (i + j) / 2 := by omega
          subst this; rw [hg] at hx; injection hx with hx; subst hx; exact hc
      · next hc =>
        apply ih i ((i + j) / 2) (by omega) (by omega) (by omega) h4
        intro k x hk hx hcx
        rcases Nat.lt_or_ge ((i + j) / 2) k with h | h
        · exact hc (hmono _ k _ x h hg hx hcx)
        · have : k = (i + j) / 2 := by omega
          subst this; rw [hg] at hx; injection hx with hx; subst hx; exact hc hcx
    · rw [if_neg hij]
      exact ⟨i, rfl, by omega, h4, fun k x hk => h5 k x (by omega)⟩

theorem binarySearchFunc_spec (c : T → Int) (l : List T)
    (hmono : ∀ (i j : Nat) (a b : T), i < j → l[i]? = some a → l[j]? = some b → c b < 0 → c a < 0) :
    ∃ r b, binarySearchFunc (fun x => some (c x)) l = some (r, b) ∧ r ≤ l.length ∧
      (∀ k x, k < r → l[k]? = some x → c x < 0) ∧ (∀ k x, r ≤ k → l[k]? = some x → ¬ c x < 0) ∧
      (b = true ↔ ∃ x, l[r]? = some x ∧ c x = 0) := by
  obtain ⟨r, h1, h2, h3, h4⟩ := binLoop_spec c l hmono l.length 0 l.length (by omega) (by omega) (by omega)
    (by intro k x hk; omega) (by intro k x hk hx; rw [List.getElem?_eq_none hk] at hx; cases hx)
  cases hx : l[r]? with
  | none =>
    exact ⟨r, false, by simp [binarySearchFunc, h1, hx], h2, h3, h4, by simp [hx]⟩
  | some x =>
    exact ⟨r, decide (c x = 0), by simp [binarySearchFunc, h1, hx], h2, h3, h4, by simp [hx]⟩

theorem at_lt {l : List T} {i : Nat} {x : T} (h : l[i]? = some x) : i < l.length := by
  rcases Nat.lt_or_ge i l.length with h' | h'
  · exact h'
  · rw [List.getElem?_eq_none h'] at h; cases h

theorem pairwise_at {R : T → T → Prop} {l : List T} (h : l.Pairwise R) {i j : Nat} {a b : T} (hij : i < j)
    (ha : l[i]? = some a) (hb : l[j]? = some b) : R a b := by
  have h1 := at_lt ha
  have h2 := at_lt hb
  rw [List.getElem?_eq_getElem h1] at ha
  rw [List.getElem?_eq_getElem h2] at hb
  injection ha with ha; injection hb with hb
  subst ha; subst hb
  exact List.pairwise_iff_getElem.1 h i j h1 h2 hij

theorem binarySearch_list {l : List T} {lt eq : T → T → Bool} (o : Order lt eq)
    (hs : l.Pairwise (fun a b => lt b a = false)) (t : T) :
    ∃ r b, binarySearchFunc (fun x => three? (some lt) (some eq) x t) l = some (r, b) ∧ r ≤ l.length ∧
      (∀ k x, l[k]? = some x → (lt x t = true ↔ k < r)) ∧
      (b = true ↔ ∃ x ∈ l, eq x t = true) ∧ (b = true → ∃ x, l[r]? = some x ∧ eq x t = true) := by
  have hm : ∀ (i j : Nat) (a b : T), i < j → l[i]? = some a → l[j]? = some b → three lt eq b t < 0 →
      three lt eq a t < 0 := by
    intro i j a b hij ha hb
    rw [three_neg, three_neg]
    intro hlt
    have := pairwise_at hs hij ha hb
    rcases o.split b a t hlt with h | h
    · rw [this] at h; cases h
    · exact h
  obtain ⟨r, b, e1, e2, e3, e4, e5⟩ := binarySearchFunc_spec (fun x => three lt eq x t) l hm
  have hbs : binarySearchFunc (fun x => three? (some lt) (some eq) x t) l = some (r, b) := by
    rw [← e1]
    simp only [three?_some]
  have hiff : ∀ k x, l[k]? = some x → (lt x t = true ↔ k < r) := by
    intro k x hx
    constructor
    · intro h
      rcases Nat.lt_or_ge k r with h' | h'
      · exact h'
      · exact absurd ((three_neg lt eq x t).2 h) (e4 k x h' hx)
    · intro h; exact (three_neg lt eq x t).1 (e3 k x h hx)
  have hfwd : b = true → ∃ x, l[r]? = some x ∧ eq x t = true := by
    intro hb
    obtain ⟨x, hx, hz⟩ := e5.1 hb
    exact ⟨x, hx, ((three_zero _ _ _ _).1 hz).2⟩
  refine ⟨r, b, hbs, e2, hiff, ⟨?_, ?_⟩, hfwd⟩
  · intro hb
    obtain ⟨x, hx, hz⟩ := hfwd hb
    exact ⟨x, List.mem_of_getElem? hx, hz⟩
  · rintro ⟨x, hx, hz⟩
    obtain ⟨k, hk⟩ := List.mem_iff_getElem?.1 hx
    have hxe := (o.eq x t).1 hz
    have hkr : r ≤ k := by
      rcases Nat.lt_or_ge k r with h | h
      · have := (hiff k x hk).2 h
        rw [hxe.1] at this; cases this
      · exact h
    have hr : r < l.length := Nat.lt_of_le_of_lt hkr (at_lt hk)
    rw [e5]
    refine ⟨l[r], List.getElem?_eq_getElem hr, (three_zero _ _ _ _).2 ?_⟩
    have hnl : lt l[r] t = false := by
      have := hiff r l[r] (List.getElem?_eq_getElem hr)
      cases h : lt l[r] t with
      | false => rfl
      | true => have := this.1 h; omega
    refine ⟨hnl, (o.eq _ _).2 ⟨hnl, ?_⟩⟩
    rcases Nat.eq_or_lt_of_le hkr with h | h
    · subst h
      rw [List.getElem?_eq_getElem hr] at hk
      injection hk with hk
      rw [hk]; exact hxe.2
    · have := pairwise_at hs h (List.getElem?_eq_getElem hr) hk
      cases h' : lt t l[r] with
      | false => rfl
      | true =>
        rcases o.split t x l[r] h' with h'' | h''
        · rw [hxe.2] at h''; cases h''
        · rw [this] at h''; cases h''

/-- C55: on a vector sorted by its order, `BinarySearch(t)` returns the place where `t` belongs —
exactly the elements before it are less than `t` — and whether the vector has an element equal to `t`. -/
theorem C55_binarySearch {v : Nat} {l : List T} (hl : Shows E g m v l) {lt eq : T → T → Bool} (o : Order lt eq)
    (h1 : m.less E v = some lt) (h2 : m.eq E v = some eq) (hs : l.Pairwise (fun a b => lt b a = false)) (t : T) :
    ∃ r b, m.binarySearch E v t = some (r, b) ∧ r ≤ l.length ∧
      (∀ k x, l[k]? = some x → (lt x t = true ↔ k < r)) ∧
      (b = true ↔ ∃ x ∈ l, eq x t = true) ∧ (b = true → ∃ x, l[r]? = some x ∧ eq x t = true) := by
  rw [VMem.binarySearch, hl.list, h1, h2]
  exact binarySearch_list o hs t

/-- C55 for a comparison given by the caller: `cmp(·, t)` must be negative on a prefix of the vector. -/
theorem C55_binarySearchFunc {v : Nat} {l : List T} (hl : Shows E g m v l) (cmp : T → T → Int) (t : T)
    (hmono : ∀ (i j : Nat) (a b : T), i < j → l[i]? = some a → l[j]? = some b → cmp b t < 0 → cmp a t < 0) :
    ∃ r b, m.binarySearchFunc v t cmp = some (r, b) ∧ r ≤ l.length ∧
      (∀ k x, l[k]? = some x → (cmp x t < 0 ↔ k < r)) ∧ (b = true ↔ ∃ x, l[r]? = some x ∧ cmp x t = 0) := by
  obtain ⟨r, b, e1, e2, e3, e4, e5⟩ := binarySearchFunc_spec (fun x => cmp x t) l hmono
  refine ⟨r, b, by rw [VMem.binarySearchFunc, hl.list]; exact e1, e2, ?_, e5⟩
  intro k x hx
  constructor
  · intro h
    rcases Nat.lt_or_ge k r with h' | h'
    · exact h'
    · exact absurd h (e4 k x h' hx)
  · intro h; exact e3 k x h hx

/-! ## C56: linear search -/

/-- The indices of the elements of `l` with `p`. -/
def Hits (p : T → Bool) (l : List T) (k : Nat) : Prop := ∃ x, l[k]? = some x ∧ p x = true

theorem indexFunc_spec (p : T → Bool) : ∀ (l : List T) (i : Nat), ∃ r, indexFunc (fun x => some (p x)) l i = some r ∧
    ((r = -1 ∧ ∀ k, ¬ Hits p l k) ∨ ∃ n : Nat, r = ((i + n : Nat) : Int) ∧ Hits p l n ∧ ∀ k, k < n → ¬ Hits p l k) := by
  intro l
  induction l with
  | nil => intro i; exact ⟨-1, rfl, .inl ⟨rfl, by simp [Hits]⟩⟩
  | cons a l ih =>
    intro i
    by_cases ha : p a
    · exact ⟨i, by simp [indexFunc, ha], .inr ⟨0, by simp, ⟨a, by simp, ha⟩, by intro k h; omega⟩⟩
    · obtain ⟨r, h1, h2⟩ := ih (i + 1)
      have hstep : ∀ k, Hits p (a :: l) k → ∃ k', k = k' + 1 ∧ Hits p l k' := by
        rintro k ⟨x, hx, hp⟩
        cases k with
        | zero => simp at hx; subst hx; contradiction
        | succ k => exact ⟨k, rfl, x, by simpa using hx, hp⟩
      refine ⟨r, by simp [indexFunc, ha, h1], ?_⟩
      rcases h2 with ⟨e, h⟩ | ⟨n, e, h, h'⟩
      · left
        refine ⟨e, fun k hk => ?_⟩
        obtain ⟨k', _, hk'⟩ := hstep k hk
        exact h k' hk'
      · right
        refine ⟨n + 1, by rw [e]; congr 1; omega, ?_, ?_⟩
        · obtain ⟨x, hx, hp⟩ := h
          exact ⟨x, by simpa using hx, hp⟩
        · intro k hk hh
          obtain ⟨k', e', hk'⟩ := hstep k hh
          exact h' k' (by omega) hk'

theorem searchAllLoop_spec (p : T → Bool) : ∀ (l : List T) (i : Nat) (acc : List Nat),
    searchAllLoop (fun x => some (p x)) l i acc =
      some (acc ++ (l.zipIdx i).filterMap (fun q => if p q.1 then some q.2 else none)) := by
  intro l
  induction l with
  | nil => intro i acc; simp [searchAllLoop]
  | cons a l ih =>
    intro i acc
    by_cases ha : p a <;> simp [searchAllLoop, ha, ih, List.zipIdx_cons]

/-- The list of the indices with `p`: it has exactly those, in increasing order. -/
structure AllHits (p : T → Bool) (l : List T) (r : List Nat) : Prop where
  mem : ∀ k, k ∈ r ↔ Hits p l k
  sorted : r.Pairwise (· < ·)

theorem allHits (p : T → Bool) (l : List T) :
    AllHits p l ((l.zipIdx 0).filterMap (fun q => if p q.1 then some q.2 else none)) := by
  constructor
  · intro k
    simp only [List.mem_filterMap, Hits]
    constructor
    · rintro ⟨⟨x, j⟩, hq, hif⟩
      simp only at hif
      split at hif
      · injection hif with hif
        subst hif
        rw [List.mem_zipIdx_iff_getElem?] at hq
        exact ⟨x, by simpa using hq, by assumption⟩
      · cases hif
    · rintro ⟨x, hx, hp⟩
      exact ⟨(x, k), by rw [List.mem_zipIdx_iff_getElem?]; simpa using hx, by simp [hp]⟩
  · suffices h : ∀ i, ((l.zipIdx i).filterMap (fun q => if p q.1 then some q.2 else none)).Pairwise (· < ·) ∧
        ∀ k ∈ (l.zipIdx i).filterMap (fun q => if p q.1 then some q.2 else none), i ≤ k from (h 0).1
    induction l with
    | nil => intro i; simp
    | cons a l ih =>
      intro i
      obtain ⟨h1, h2⟩ := ih (i + 1)
      by_cases ha : p a
      · simp only [List.zipIdx_cons, List.filterMap_cons, ha, if_true]
        refine ⟨List.pairwise_cons.2 ⟨fun k hk => by have := h2 k hk; omega, h1⟩, ?_⟩
        intro k hk
        rcases List.mem_cons.1 hk with h | h
        · omega
        · have := h2 k h; omega
      · simp only [List.zipIdx_cons, List.filterMap_cons, ha]
        exact ⟨h1, fun k hk => by have := h2 k hk; omega⟩

/-- What the four searching methods return for the test `p`. -/
def IsIndex (p : T → Bool) (l : List T) (r : Int) : Prop :=
  (r = -1 ∧ ∀ k, ¬ Hits p l k) ∨ ∃ n : Nat, r = n ∧ Hits p l n ∧ ∀ k, k < n → ¬ Hits p l k

theorem indexFunc_spec0 (p : T → Bool) (l : List T) : ∃ r, indexFunc (fun x => some (p x)) l 0 = some r ∧ IsIndex p l r := by
  obtain ⟨r, h1, h2⟩ := indexFunc_spec p l 0
  refine ⟨r, h1, ?_⟩
  rcases h2 with h | ⟨n, h⟩
  · exact .inl h
  · exact .inr ⟨n, by simpa using h⟩

theorem IsIndex.ge {p : T → Bool} {l : List T} {r : Int} (h : IsIndex p l r) : r ≥ 0 ↔ ∃ x ∈ l, p x = true := by
  rcases h with ⟨e, h⟩ | ⟨n, e, ⟨x, hx, hp⟩, _⟩
  · subst e
    constructor
    · intro h; omega
    · rintro ⟨x, hx, hp⟩
      obtain ⟨k, hk⟩ := List.mem_iff_getElem?.1 hx
      exact absurd ⟨x, hk, hp⟩ (h k)
  · exact ⟨fun _ => ⟨x, List.mem_of_getElem? hx, hp⟩, fun _ => by omega⟩

/-- C56: the searching methods with a test given by the caller. -/
theorem C56_searchFunc {v : Nat} {l : List T} (hl : Shows E g m v l) (p : T → Bool) :
    (∃ r, m.searchFunc v p = some r ∧ IsIndex p l r) ∧ (∃ r, m.searchAllFunc v p = some r ∧ AllHits p l r) ∧
    (∃ b, m.containsFunc v p = some b ∧ (b = true ↔ ∃ x ∈ l, p x = true)) := by
  obtain ⟨r, h1, h2⟩ := indexFunc_spec0 p l
  refine ⟨⟨r, by rw [VMem.searchFunc, hl.list]; exact h1, h2⟩, ⟨_, ?_, allHits p l⟩, ⟨decide (r ≥ 0), ?_, ?_⟩⟩
  · rw [VMem.searchAllFunc, hl.list, searchAllLoop_spec]; simp
  · simp [VMem.containsFunc, hl.list, h1]
  · rw [decide_eq_true_iff]; exact h2.ge

/-- C56: the searching methods with the equality of the vector; `Search` and `SearchAll` call it with
the target as the first argument, `Contains` as the second. -/
theorem C56_search {v : Nat} {l : List T} (hl : Shows E g m v l) {eq : T → T → Bool} (h : m.eq E v = some eq) (t : T) :
    (∃ r, m.search E v t = some r ∧ IsIndex (fun x => eq t x) l r) ∧
    (∃ r, m.searchAll E v t = some r ∧ AllHits (fun x => eq t x) l r) ∧
    (∃ b, m.contains E v t = some b ∧ (b = true ↔ ∃ x ∈ l, eq x t = true)) := by
  obtain ⟨r, h1, h2⟩ := indexFunc_spec0 (fun x => eq t x) l
  obtain ⟨r', h1', h2'⟩ := indexFunc_spec0 (fun x => eq x t) l
  refine ⟨⟨r, ?_, h2⟩, ⟨_, ?_, allHits _ l⟩, ⟨decide (r' ≥ 0), ?_, ?_⟩⟩
  · rw [VMem.search, hl.list, h]; exact h1
  · rw [VMem.searchAll, hl.list, h]
    have := searchAllLoop_spec (fun x => eq t x) l 0 []
    simpa [call] using this
  · simp only [VMem.contains, hl.list, h, call, Option.map_some]; rw [h1']; rfl
  · rw [decide_eq_true_iff]; exact h2'.ge

/-- Without an equality every search in a nonempty vector panics. -/
theorem C56_panic {v : Nat} {l : List T} (hl : Shows E g m v l) (h : m.eq E v = none) (hne : l ≠ []) (t : T) :
    m.search E v t = none ∧ m.searchAll E v t = none ∧ m.contains E v t = none := by
  cases l with
  | nil => contradiction
  | cons a l =>
    simp [VMem.search, VMem.searchAll, VMem.contains, hl.list, h, call, indexFunc, searchAllLoop]

/-! ## C57: sorting -/

theorem sortedLoop_spec (lt eq : T → T → Bool) (l : List T) : ∀ n, n < l.length →
    ∃ b, sortedLoop (three? (some lt) (some eq)) l n = some b ∧
      (b = true ↔ ∀ i a c, i < n → l[i]? = some a → l[i + 1]? = some c → lt c a = false) := by
  intro n
  induction n with
  | zero => intro _; exact ⟨true, rfl, by simp⟩
  | succ n ih =>
    intro hn
    obtain ⟨b, h1, h2⟩ := ih (by omega)
    have g1 := List.getElem?_eq_getElem hn
    have g2 := List.getElem?_eq_getElem (show n < l.length by omega)
    simp only [sortedLoop, g1, g2, three?_some, Option.bind_eq_bind, Option.bind_some]
    by_cases hc : three lt eq l[n + 1] l[n] < 0
    · rw [if_pos hc]
      refine ⟨false, rfl, ?_⟩
      rw [three_neg] at hc
      constructor
      · simp
      · intro h
        rw [h n _ _ (by omega) g2 g1] at hc; cases hc
    · rw [if_neg hc]
      refine ⟨b, h1, h2.trans ?_⟩
      rw [three_neg] at hc
      constructor
      · intro h i a c hi ha hc'
        rcases Nat.lt_or_ge i n with h' | h'
        · exact h i a c h' ha hc'
        · have : i = n := by omega
          subst this
          rw [g2] at ha; rw [g1] at hc'
          injection ha with ha; injection hc' with hc'
          subst ha; subst hc'
          simpa using hc
      · intro h i a c hi; exact h i a c (by omega)

theorem adjacent_sorted {lt eq : T → T → Bool} (o : Order lt eq) {l : List T} :
    (∀ i a c, i < l.length - 1 → l[i]? = some a → l[i + 1]? = some c → lt c a = false) ↔
    l.Pairwise (fun a b => lt b a = false) := by
  constructor
  · intro h
    induction l with
    | nil => exact .nil
    | cons x l ih =>
      refine List.pairwise_cons.2 ⟨?_, ih ?_⟩
      · suffices hk : ∀ k y, l[k]? = some y → lt y x = false by
          intro y hy
          obtain ⟨k, hk'⟩ := List.mem_iff_getElem?.1 hy
          exact hk k y hk'
        intro k
        induction k with
        | zero =>
          intro y hy
          exact h 0 x y (by simp; exact at_lt hy) (by simp) (by simpa using hy)
        | succ k ihk =>
          intro y hy
          have hlt := at_lt hy
          have hz := ihk l[k] (List.getElem?_eq_getElem (by omega))
          have := h (k + 1) l[k] y (by simp; omega) (by simp) (by simpa using hy)
          cases h' : lt y x with
          | false => rfl
          | true =>
            rcases o.split y l[k] x h' with h'' | h''
            · rw [this] at h''; cases h''
            · rw [hz] at h''; cases h''
      · intro i a c hi ha hc
        exact h (i + 1) a c (by simp; omega) (by simpa using ha) (by simpa using hc)
  · intro h i a c _ ha hc
    exact pairwise_at h (by omega) ha hc

theorem pairwise_ext {lt lt' : T → T → Bool} {l : List T} (he : ∀ a b, a ∈ l → b ∈ l → lt' a b = lt a b) :
    l.Pairwise (fun a b => lt' b a = false) ↔ l.Pairwise (fun a b => lt b a = false) :=
  List.Pairwise.iff_of_mem fun ha hb => by rw [he _ _ hb ha]

/-- `IsSorted` says whether the vector is sorted by its order. -/
theorem C57_isSorted_on {v : Nat} {l : List T} (hl : Shows E g m v l) {lt eq : T → T → Bool} (o : OrderOn lt eq (· ∈ l))
    (h1 : m.less E v = some lt) (h2 : m.eq E v = some eq) :
    ∃ b, m.isSorted E v = some b ∧ (b = true ↔ l.Pairwise (fun a b => lt b a = false)) := by
  unfold VMem.isSorted VMem.isSortedFunc
  rw [h1, h2, hl.list, hl.len]
  rcases Nat.eq_zero_or_pos l.length with h | h
  · have := List.length_eq_zero_iff.1 h
    subst this
    exact ⟨true, rfl, by simp⟩
  · obtain ⟨b, e1, e2⟩ := sortedLoop_spec lt eq l (l.length - 1) (by omega)
    refine ⟨b, e1, e2.trans ?_⟩
    obtain ⟨lt', eq', o', he⟩ := o.extend
    rw [← pairwise_ext (fun a b ha hb => (he a b ha hb).1), ← adjacent_sorted o']
    refine forall_congr' fun i => forall_congr' fun a => forall_congr' fun b => ?_
    refine forall_congr' fun hi => forall_congr' fun ha => forall_congr' fun hb => ?_
    rw [(he _ _ (List.mem_of_getElem? hb) (List.mem_of_getElem? ha)).1]

theorem C57_isSorted {v : Nat} {l : List T} (hl : Shows E g m v l) {lt eq : T → T → Bool} (o : Order lt eq)
    (h1 : m.less E v = some lt) (h2 : m.eq E v = some eq) :
    ∃ b, m.isSorted E v = some b ∧ (b = true ↔ l.Pairwise (fun a b => lt b a = false)) :=
  C57_isSorted_on hl (o.on _) h1 h2

theorem perm_short {l : List T} (h : l.length < 2) {R : T → T → Prop} : l.Pairwise R := by
  match l, h with
  | [], _ => exact .nil
  | [_], _ => exact List.pairwise_singleton ..
  | _ :: _ :: _, h => simp only [List.length_cons] at h; omega

/-- Equivalent elements keep their order: for each element `x` the elements equal to `x` are the same list. -/
def SameOrder (eq : T → T → Bool) (l l' : List T) : Prop := ∀ x ∈ l, l'.filter (eq x) = l.filter (eq x)

theorem three?_eq (lt eq : T → T → Bool) : three? (some lt) (some eq) = fun a b => some (three lt eq a b) := by
  funext a b; exact three?_some lt eq a b

/-- `l'` is `l` sorted. -/
def SortOf (lt : T → T → Bool) (l l' : List T) : Prop := l'.Perm l ∧ l'.Pairwise (fun a b => lt b a = false)

theorem sort_common {f : (T → T → Option Int) → List T → Option (List T)} (hf : Sorts f) {lt eq : T → T → Bool} {l : List T}
    (o : OrderOn lt eq (· ∈ l)) : ∃ l', f (three? (some lt) (some eq)) l = some l' ∧ SortOf lt l l' := by
  obtain ⟨l', hl'⟩ := Option.ne_none_iff_exists'.1 (hf.total (three? (some lt) (some eq)) l (by simp [three?_some]))
  refine ⟨l', hl', hf.perm _ _ _ hl', ?_⟩
  rw [three?_eq] at hl'
  exact (hf.sorted _ _ _ o.swo hl').imp fun {a b} h => by rw [three_neg] at h; simpa using h

theorem stable_common (P : SortImpl T) {lt eq : T → T → Bool} {l l' : List T} (o : OrderOn lt eq (· ∈ l))
    (h : P.stable (three? (some lt) (some eq)) l = some l') : SameOrder eq l l' := by
  intro x hx
  have hp := P.stable_ok.perm _ _ _ h
  rw [three?_eq] at h
  have hs := P.stable_stable _ l l' o.swo h x hx
  have he : ∀ y ∈ l, equivB (three lt eq) x y = eq x y := by
    intro y hy
    rw [Bool.eq_iff_iff, o.eq x y hx hy]
    simp [equivB, three_neg]
  rw [List.filter_congr he] at hs
  rw [← hs]
  exact List.filter_congr fun y hy => (he y (hp.mem_iff.1 hy)).symm

/-- What is seen after a sort. -/
theorem sortBy_shows {h : List (Mut T)} {rs : List (Res T)} (hr : Run E g P h rs m) {v : Nat} (hv : v < m.nv)
    {l : List T} (hl : Shows E g m v l) {f : (T → T → Option Int) → List T → Option (List T)} (hf : Sorts f)
    {cmp : T → T → Option Int} {l' : List T} (he : f cmp l = some l') :
    ∃ m', sortBy (f cmp) m v = some (m', .unit) ∧ Shows E g m' v l' ∧ m'.less E v = m.less E v ∧ m'.eq E v = m.eq E v := by
  obtain ⟨_, s, _, _, h⟩ := hr.rel
  have hsl : s.l v = l := by rw [← h.list v hv]; exact hl.slice
  have hml : m.mem.read (m.d v) = l := hl.slice
  subst hsl
  rcases step_sort h hv hf (cmp := cmp) with ⟨_, e⟩ | ⟨m', r, s', p, e1, e2, e3, e4⟩
  · simp [he] at e
  · rw [he] at e2
    cases e2
    have hsh := e3.shows (E := E) (g := g) (v := v) (by rw [e3.n]; show v < s.n; rw [← h.n]; exact hv)
    simp only [SState.put, if_true] at hsh
    subst e4
    refine ⟨m', e1, hsh, ?_, ?_⟩ <;>
    · simp only [sortBy, hml, he, Option.map_some, Option.some.injEq, Prod.mk.injEq, and_true] at e1
      subst e1
      simp only [VMem.less, VMem.eq]; congr 1; funext w; simp only [VMem.setD]; split <;> simp_all

/-- C57: `Sort` and `SortStable` leave a sorted permutation; `SortStable` keeps the order of equal
elements; and then `IsSorted` is true. -/
theorem C57_sort_on {h : List (Mut T)} {rs : List (Res T)} (hr : Run E g P h rs m) {v : Nat} (hv : v < m.nv)
    {l : List T} (hl : Shows E g m v l) {lt eq : T → T → Bool} (o : OrderOn lt eq (· ∈ l))
    (h1 : m.less E v = some lt) (h2 : m.eq E v = some eq) (stable : Bool) :
    ∃ m' l', exec E g P m (if stable then .sortStable v else .sort v) = some (m', .unit) ∧ Shows E g m' v l' ∧
      l'.Perm l ∧ l'.Pairwise (fun a b => lt b a = false) ∧ (stable = true → SameOrder eq l l') ∧
      m'.isSorted E v = some true := by
  have fin : ∀ m' l', Shows E g m' v l' → l'.Perm l → m'.less E v = m.less E v → m'.eq E v = m.eq E v →
      l'.Pairwise (fun a b => lt b a = false) → m'.isSorted E v = some true := by
    intro m' l' hs hpm a1 a2 hp
    obtain ⟨b, e1, e2⟩ := C57_isSorted_on hs (o.mono fun a ha => hpm.mem_iff.1 ha) (a1.trans h1) (a2.trans h2)
    rw [e1, e2.2 hp]
  cases stable with
  | false =>
    obtain ⟨l', e1, e2, e3⟩ := sort_common P.sort_ok o
    obtain ⟨m', e4, e5, e6, e7⟩ := sortBy_shows hr hv hl P.sort_ok e1
    exact ⟨m', l', by simp only [reduceIte, Bool.false_eq_true, exec, h1, h2]; exact e4, e5, e2, e3, by simp, fin m' l' e5 e2 e6 e7 e3⟩
  | true =>
    obtain ⟨l', e1, e2, e3⟩ := sort_common P.stable_ok o
    obtain ⟨m', e4, e5, e6, e7⟩ := sortBy_shows hr hv hl P.stable_ok e1
    exact ⟨m', l', by simp only [reduceIte, Bool.false_eq_true, exec, h1, h2]; exact e4, e5, e2, e3, fun _ => stable_common P o e1,
      fin m' l' e5 e2 e6 e7 e3⟩

/-- C57 for `SortFunc` and `SortStableFunc`, with comparisons given by the caller. -/
theorem C57_sortFunc_on {h : List (Mut T)} {rs : List (Res T)} (hr : Run E g P h rs m) {v : Nat} (hv : v < m.nv)
    {l : List T} (hl : Shows E g m v l) {lt eq : T → T → Bool} (o : OrderOn lt eq (· ∈ l)) (stable : Bool) :
    ∃ m' l', exec E g P m (if stable then .sortStableFunc v lt eq else .sortFunc v lt eq) = some (m', .unit) ∧
      Shows E g m' v l' ∧ l'.Perm l ∧ l'.Pairwise (fun a b => lt b a = false) ∧ (stable = true → SameOrder eq l l') ∧
      m'.less E v = m.less E v ∧ m'.eq E v = m.eq E v := by
  cases stable with
  | false =>
    obtain ⟨l', e1, e2, e3⟩ := sort_common P.sort_ok o
    obtain ⟨m', e4, e5, e6, e7⟩ := sortBy_shows hr hv hl P.sort_ok e1
    exact ⟨m', l', e4, e5, e2, e3, by simp, e6, e7⟩
  | true =>
    obtain ⟨l', e1, e2, e3⟩ := sort_common P.stable_ok o
    obtain ⟨m', e4, e5, e6, e7⟩ := sortBy_shows hr hv hl P.stable_ok e1
    exact ⟨m', l', e4, e5, e2, e3, fun _ => stable_common P o e1, e6, e7⟩

/-- Sorting moves elements, whatever the comparisons are; it panics if `less` is missing and there are two elements;
it does not if no comparison is missing. -/
theorem C57_moves {h : List (Mut T)} {rs : List (Res T)} (hr : Run E g P h rs m) {v : Nat} (hv : v < m.nv)
    {l : List T} (hl : Shows E g m v l) (stable : Bool) :
    (∀ m' r, exec E g P m (if stable then .sortStable v else .sort v) = some (m', r) →
      ∃ l', Shows E g m' v l' ∧ l'.Perm l) ∧
    (l.length < 2 → ∃ m', exec E g P m (if stable then .sortStable v else .sort v) = some (m', .unit) ∧ Shows E g m' v l) ∧
    (2 ≤ l.length → m.less E v = none → exec E g P m (if stable then .sortStable v else .sort v) = none) ∧
    (m.less E v ≠ none → m.eq E v ≠ none → exec E g P m (if stable then .sortStable v else .sort v) ≠ none) := by
  have hml : m.mem.read (m.d v) = l := hl.slice
  suffices hx : ∃ f : (T → T → Option Int) → List T → Option (List T), Sorts f ∧
      exec E g P m (if stable then .sortStable v else .sort v) = sortBy (f (three? (m.less E v) (m.eq E v))) m v by
    obtain ⟨f, hf, hx⟩ := hx
    rw [hx]
    refine ⟨?_, ?_, ?_, ?_⟩
    · intro m' r he
      obtain ⟨l', h1, h2⟩ := Option.map_eq_some_iff.1 he
      rw [hml] at h1
      obtain ⟨m'', e4, e5, _⟩ := sortBy_shows hr hv hl hf h1
      rw [he] at e4
      cases e4
      exact ⟨l', e5, hf.perm _ _ _ h1⟩
    · intro hlt
      obtain ⟨m', e4, e5, _⟩ := sortBy_shows hr hv hl hf (hf.short (three? (m.less E v) (m.eq E v)) l hlt)
      exact ⟨m', e4, e5⟩
    · intro h2 hn
      simp only [sortBy, hml, Option.map_eq_none_iff]
      exact hf.panic _ _ h2 fun a b => by simp [three?, hn]
    · intro h1 h2
      obtain ⟨lt, h1⟩ := Option.ne_none_iff_exists'.1 h1
      obtain ⟨eq, h2⟩ := Option.ne_none_iff_exists'.1 h2
      simp only [sortBy, hml, ne_eq, Option.map_eq_none_iff]
      exact hf.total _ _ fun a _ b _ => by rw [h1, h2, three?_some]; simp
  cases stable with
  | false => exact ⟨P.sort, P.sort_ok, rfl⟩
  | true => exact ⟨P.stable, P.stable_ok, rfl⟩

theorem C57_sort {h : List (Mut T)} {rs : List (Res T)} (hr : Run E g P h rs m) {v : Nat} (hv : v < m.nv)
    {l : List T} (hl : Shows E g m v l) {lt eq : T → T → Bool} (o : Order lt eq)
    (h1 : m.less E v = some lt) (h2 : m.eq E v = some eq) (stable : Bool) :
    ∃ m' l', exec E g P m (if stable then .sortStable v else .sort v) = some (m', .unit) ∧ Shows E g m' v l' ∧
      l'.Perm l ∧ l'.Pairwise (fun a b => lt b a = false) ∧ (stable = true → SameOrder eq l l') ∧
      m'.isSorted E v = some true :=
  C57_sort_on hr hv hl (o.on _) h1 h2 stable

/-! ## C58: extremes -/

theorem maxLoop_spec {lt eq : T → T → Bool} (o : Order lt eq) : ∀ (l : List T) (x : T),
    ∃ r, maxLoop (three? (some lt) (some eq)) x l = some r ∧ r ∈ x :: l ∧ ∀ y ∈ x :: l, lt r y = false := by
  intro l
  induction l with
  | nil => intro x; exact ⟨x, rfl, by simp, by simp [o.irrefl]⟩
  | cons a l ih =>
    intro x
    simp only [maxLoop, three?_some, Option.bind_eq_bind, Option.bind_some]
    split
    · next hc =>
      obtain ⟨r, h1, h2, h3⟩ := ih a
      refine ⟨r, h1, List.mem_cons_of_mem _ h2, ?_⟩
      intro y hy
      rcases List.mem_cons.1 hy with e | e
      · subst e
        rw [three_pos] at hc
        have hya : lt y a = true := by
          cases h' : lt y a with
          | true => rfl
          | false => have := (o.eq a y).2 ⟨hc.1, h'⟩; rw [hc.2] at this; cases this
        cases h' : lt r y with
        | false => rfl
        | true =>
          have := o.trans h' hya
          rw [h3 a (by simp)] at this; cases this
      · exact h3 y e
    · next hc =>
      obtain ⟨r, h1, h2, h3⟩ := ih x
      refine ⟨r, h1, ?_, ?_⟩
      · rcases List.mem_cons.1 h2 with e | e
        · simp [e]
        · simp [e]
      · intro y hy
        rcases List.mem_cons.1 hy with e | e
        · subst e; exact h3 y (by simp)
        · rcases List.mem_cons.1 e with e | e
          · subst e
            rw [three_pos] at hc
            cases h' : lt r y with
            | false => rfl
            | true =>
              rcases o.split r x y h' with h'' | h''
              · rw [h3 x (by simp)] at h''; cases h''
              · have h5 := o.asymm _ _ h''
                have : eq y x = false := by
                  cases h6 : eq y x with
                  | false => rfl
                  | true => have := ((o.eq _ _).1 h6).2; rw [h''] at this; cases this
                exact absurd ⟨h5, this⟩ hc
          · exact h3 y (by simp [e])

theorem minLoop_spec {lt eq : T → T → Bool} (o : Order lt eq) : ∀ (l : List T) (x : T),
    ∃ r, minLoop (three? (some lt) (some eq)) x l = some r ∧ r ∈ x :: l ∧ ∀ y ∈ x :: l, lt y r = false := by
  intro l
  induction l with
  | nil => intro x; exact ⟨x, rfl, by simp, by simp [o.irrefl]⟩
  | cons a l ih =>
    intro x
    simp only [minLoop, three?_some, Option.bind_eq_bind, Option.bind_some]
    split
    · next hc =>
      rw [three_neg] at hc
      obtain ⟨r, h1, h2, h3⟩ := ih a
      refine ⟨r, h1, List.mem_cons_of_mem _ h2, ?_⟩
      intro y hy
      rcases List.mem_cons.1 hy with e | e
      · subst e
        cases h' : lt y r with
        | false => rfl
        | true =>
          have := o.trans hc h'
          rw [h3 a (by simp)] at this; cases this
      · exact h3 y e
    · next hc =>
      rw [three_neg] at hc
      obtain ⟨r, h1, h2, h3⟩ := ih x
      refine ⟨r, h1, ?_, ?_⟩
      · rcases List.mem_cons.1 h2 with e | e
        · simp [e]
        · simp [e]
      · intro y hy
        rcases List.mem_cons.1 hy with e | e
        · subst e; exact h3 y (by simp)
        · rcases List.mem_cons.1 e with e | e
          · subst e
            cases h' : lt y r with
            | false => rfl
            | true =>
              rcases o.split y x r h' with h'' | h''
              · contradiction
              · rw [h3 x (by simp)] at h''; cases h''
          · exact h3 y (by simp [e])

/-- C58: `Max` and `Min` return an element of the vector that no other one exceeds, resp. that
exceeds no other; on an empty vector they panic. -/
theorem C58_extremes {v : Nat} {l : List T} (hl : Shows E g m v l) {lt eq : T → T → Bool} (o : Order lt eq)
    (h1 : m.less E v = some lt) (h2 : m.eq E v = some eq) :
    (l ≠ [] → (∃ x, m.max E v = some x ∧ x ∈ l ∧ ∀ y ∈ l, lt x y = false) ∧
      (∃ x, m.min E v = some x ∧ x ∈ l ∧ ∀ y ∈ l, lt y x = false)) ∧
    (l = [] → m.max E v = none ∧ m.min E v = none) := by
  unfold VMem.max VMem.min VMem.maxFunc VMem.minFunc
  rw [h1, h2, hl.list]
  cases l with
  | nil => simp [maxFunc, minFunc]
  | cons a l => exact ⟨fun _ => ⟨maxLoop_spec o l a, minLoop_spec o l a⟩, by simp⟩

/-- C58 for `MaxFunc`, `MinFunc` with comparisons given by the caller. -/
theorem C58_func {v : Nat} {l : List T} (hl : Shows E g m v l) {lt eq : T → T → Bool} (o : Order lt eq) :
    (l ≠ [] → (∃ x, m.maxFunc v (some lt) (some eq) = some x ∧ x ∈ l ∧ ∀ y ∈ l, lt x y = false) ∧
      (∃ x, m.minFunc v (some lt) (some eq) = some x ∧ x ∈ l ∧ ∀ y ∈ l, lt y x = false)) ∧
    (l = [] → m.maxFunc v (some lt) (some eq) = none ∧ m.minFunc v (some lt) (some eq) = none) := by
  unfold VMem.maxFunc VMem.minFunc
  rw [hl.list]
  cases l with
  | nil => simp [maxFunc, minFunc]
  | cons a l => exact ⟨fun _ => ⟨maxLoop_spec o l a, minLoop_spec o l a⟩, by simp⟩

/-! ## C59: compaction -/

/-- Number the elements that differ from their left neighbour. -/
def Kept (eq : T → T → Bool) (l : List T) (k : Nat) : Prop :=
  ∃ x, l[k]? = some x ∧ (k = 0 ∨ ∃ y, l[k - 1]? = some y ∧ eq x y = false)

/-- `l'` is made of the elements of `l` at the increasing indices `ks`. -/
def Picks (l : List T) (ks : List Nat) (l' : List T) : Prop :=
  ks.Pairwise (· < ·) ∧ l'.map some = ks.map (fun k => l[k]?)

theorem dedup_go_picks (eq : T → T → Bool) : ∀ (l : List T) (p : T), ∃ ks, Picks l ks (dedup.go eq p l) ∧
    ∀ k, k ∈ ks ↔ ∃ x y, l[k]? = some x ∧ (p :: l)[k]? = some y ∧ eq x y = false := by
  intro l
  induction l with
  | nil => intro p; exact ⟨[], ⟨.nil, rfl⟩, by simp⟩
  | cons a l ih =>
    intro p
    obtain ⟨ks, ⟨h1, h2⟩, h3⟩ := ih a
    have hmap : ∀ ks : List Nat, (ks.map (· + 1)).map (fun k => (a :: l)[k]?) = ks.map (fun k => l[k]?) := by
      intro ks; simp
    have hpw : (ks.map (· + 1)).Pairwise (· < ·) := List.pairwise_map.2 (h1.imp (by intro x y h; omega))
    by_cases he : eq a p
    · refine ⟨ks.map (· + 1), ⟨hpw, by rw [hmap]; simpa [dedup.go, he] using h2⟩, ?_⟩
      intro k
      rw [List.mem_map]
      constructor
      · rintro ⟨k', hk', rfl⟩
        simpa using (h3 k').1 hk'
      · rintro ⟨x, y, hx, hy, hf⟩
        cases k with
        | zero => simp at hx hy; subst hx; subst hy; rw [he] at hf; cases hf
        | succ k => exact ⟨k, (h3 k).2 ⟨x, y, by simpa using hx, by simpa using hy, hf⟩, rfl⟩
    · refine ⟨0 :: ks.map (· + 1), ⟨List.pairwise_cons.2 ⟨?_, hpw⟩, ?_⟩, ?_⟩
      · intro k hk
        obtain ⟨k', _, rfl⟩ := List.mem_map.1 hk
        omega
      · rw [List.map_cons, hmap]; simpa [dedup.go, he] using h2
      · intro k
        rw [List.mem_cons, List.mem_map]
        constructor
        · rintro (rfl | ⟨k', hk', rfl⟩)
          · exact ⟨a, p, by simp, by simp, by simpa using he⟩
          · simpa using (h3 k').1 hk'
        · rintro ⟨x, y, hx, hy, hf⟩
          cases k with
          | zero => exact .inl rfl
          | succ k => exact .inr ⟨k, (h3 k).2 ⟨x, y, by simpa using hx, by simpa using hy, hf⟩, rfl⟩

/-- `dedup` keeps exactly the elements that differ from their left neighbour. -/
theorem dedup_picks (eq : T → T → Bool) (l : List T) : ∃ ks, Picks l ks (dedup eq l) ∧ ∀ k, k ∈ ks ↔ Kept eq l k := by
  cases l with
  | nil => exact ⟨[], ⟨.nil, rfl⟩, by simp [Kept]⟩
  | cons a l =>
    obtain ⟨ks, ⟨h1, h2⟩, h3⟩ := dedup_go_picks eq l a
    refine ⟨0 :: ks.map (· + 1), ⟨List.pairwise_cons.2 ⟨?_, ?_⟩, ?_⟩, ?_⟩
    · intro k hk
      obtain ⟨k', _, rfl⟩ := List.mem_map.1 hk
      omega
    · exact List.pairwise_map.2 (h1.imp (by intro x y h; omega))
    · have e : ((fun k => (a :: l)[k]?) ∘ fun x => x + 1) = fun k => l[k]? := by funext k; simp
      simpa [dedup, e] using h2
    · intro k
      rw [List.mem_cons, List.mem_map]
      constructor
      · rintro (rfl | ⟨k', hk', rfl⟩)
        · exact ⟨a, by simp, .inl rfl⟩
        · obtain ⟨x, y, hx, hy, hf⟩ := (h3 k').1 hk'
          exact ⟨x, by simpa using hx, .inr ⟨y, by simpa using hy, hf⟩⟩
      · rintro ⟨x, hx, h | ⟨y, hy, hf⟩⟩
        · exact .inl h
        · cases k with
          | zero => exact .inl rfl
          | succ k => exact .inr ⟨k, (h3 k).2 ⟨x, y, by simpa using hx, by simpa using hy, hf⟩, rfl⟩

theorem dedup_sorted {lt eq : T → T → Bool} (o : Order lt eq) {l : List T}
    (hs : l.Pairwise (fun a b => lt b a = false)) :
    (dedup eq l).Pairwise (fun a b => lt a b = true) ∧ ∀ x ∈ l, ∃ y ∈ dedup eq l, eq x y = true := by
  have go : ∀ (l : List T) (p : T), (p :: l).Pairwise (fun a b => lt b a = false) →
      (p :: dedup.go eq p l).Pairwise (fun a b => lt a b = true) ∧
      ∀ x ∈ p :: l, ∃ y ∈ p :: dedup.go eq p l, eq x y = true := by
    intro l
    induction l with
    | nil =>
      intro p _
      exact ⟨List.pairwise_singleton .., by simp [dedup.go, o.eq, o.irrefl]⟩
    | cons a l ih =>
      intro p hp
      have hpl := (List.pairwise_cons.1 hp)
      obtain ⟨h1, h2⟩ := ih a hpl.2
      have hap := hpl.1 a (by simp)
      by_cases he : eq a p
      · have hpa := (o.eq a p).1 he
        simp only [dedup.go, he, if_true]
        refine ⟨List.pairwise_cons.2 ⟨?_, (List.pairwise_cons.1 h1).2⟩, ?_⟩
        · intro y hy
          have := (List.pairwise_cons.1 h1).1 y hy
          rcases o.split a p y this with h | h
          · rw [hpa.1] at h; cases h
          · exact h
        · intro x hx
          rcases List.mem_cons.1 hx with e | e
          · exact ⟨p, by simp, by subst e; exact (o.eq _ _).2 ⟨o.irrefl _, o.irrefl _⟩⟩
          · obtain ⟨y, hy, hxy⟩ := h2 x e
            rcases List.mem_cons.1 hy with e' | e'
            · subst e'
              refine ⟨p, by simp, (o.eq _ _).2 ?_⟩
              have hxa := (o.eq _ _).1 hxy
              constructor
              · cases h : lt x p with
                | false => rfl
                | true =>
                  rcases o.split x y p h with h' | h'
                  · rw [hxa.1] at h'; cases h'
                  · rw [hpa.1] at h'; cases h'
              · cases h : lt p x with
                | false => rfl
                | true =>
                  rcases o.split p y x h with h' | h'
                  · rw [hpa.2] at h'; cases h'
                  · rw [hxa.2] at h'; cases h'
            · exact ⟨y, by simp [e'], hxy⟩
      · have hlt : lt p a = true := by
          cases h : lt p a with
          | true => rfl
          | false => exact absurd ((o.eq a p).2 ⟨hap, h⟩) he
        simp only [dedup.go, he]
        refine ⟨List.pairwise_cons.2 ⟨?_, h1⟩, ?_⟩
        · intro y hy
          rcases List.mem_cons.1 hy with e | e
          · subst e; exact hlt
          · exact o.trans hlt ((List.pairwise_cons.1 h1).1 y e)
        · intro x hx
          rcases List.mem_cons.1 hx with e | e
          · exact ⟨p, by simp, by subst e; exact (o.eq _ _).2 ⟨o.irrefl _, o.irrefl _⟩⟩
          · obtain ⟨y, hy, hxy⟩ := h2 x e
            exact ⟨y, List.mem_cons_of_mem _ hy, hxy⟩
  cases l with
  | nil => simp [dedup]
  | cons a l => exact go l a hs

theorem dedup_congr {eq eq' : T → T → Bool} {l : List T} (h : ∀ a ∈ l, ∀ b ∈ l, eq' a b = eq a b) : dedup eq' l = dedup eq l := by
  have go : ∀ (l : List T) (p : T), (∀ a ∈ p :: l, ∀ b ∈ p :: l, eq' a b = eq a b) → dedup.go eq' p l = dedup.go eq p l := by
    intro l
    induction l with
    | nil => intro p _; rfl
    | cons y l ih =>
      intro p h
      unfold dedup.go
      rw [h y (by simp) p (by simp), ih y fun a ha b hb => h a (by simp at ha ⊢; tauto) b (by simp at hb ⊢; tauto)]
  cases l with
  | nil => rfl
  | cons x l => show x :: _ = x :: _; rw [go l x h]

theorem dedup_sorted_on {lt eq : T → T → Bool} {l : List T} (o : OrderOn lt eq (· ∈ l))
    (hs : l.Pairwise (fun a b => lt b a = false)) :
    (dedup eq l).Pairwise (fun a b => lt a b = true) ∧ ∀ x ∈ l, ∃ y ∈ dedup eq l, eq x y = true := by
  obtain ⟨lt', eq', o', he⟩ := o.extend
  obtain ⟨h1, h2⟩ := dedup_sorted o' ((pairwise_ext fun a b ha hb => (he a b ha hb).1).2 hs)
  have hsub : ∀ y ∈ dedup eq l, y ∈ l := by
    intro y hy
    obtain ⟨ks, hk, _⟩ := dedup_picks eq l
    have hm : some y ∈ (dedup eq l).map some := List.mem_map_of_mem hy
    rw [hk.2] at hm
    obtain ⟨k, _, hk⟩ := List.mem_map.1 hm
    exact List.mem_of_getElem? hk
  rw [dedup_congr fun a ha b hb => (he a b ha hb).2] at h1 h2
  refine ⟨(List.Pairwise.iff_of_mem fun ha hb => by rw [(he _ _ (hsub _ ha) (hsub _ hb)).1]).1 h1, ?_⟩
  intro x hx
  obtain ⟨y, hy, hxy⟩ := h2 x hx
  exact ⟨y, hy, by rw [← (he x y hx (hsub y hy)).2]; exact hxy⟩

theorem dedup_short {eq : T → T → Bool} {l : List T} (h : l.length < 2) : dedup eq l = l := by
  match l, h with
  | [], _ => rfl
  | [_], _ => rfl
  | _ :: _ :: _, h => simp only [List.length_cons] at h; omega

/-- C59: `Compact` and `CompactFunc` keep exactly the elements that differ from their left neighbour,
in order; on a sorted vector one of each class of equal elements is left. -/
theorem C59_compact {h : List (Mut T)} {rs : List (Res T)} (hr : Run E g P h rs m) {v : Nat} (hv : v < m.nv)
    {l : List T} (hl : Shows E g m v l) {eq : T → T → Bool} (func : Bool) (h2 : func = false → m.eq E v = some eq) :
    ∃ m' l', exec E g P m (if func then .compactFunc v eq else .compact v) = some (m', .unit) ∧ Shows E g m' v l' ∧
      (∃ ks, Picks l ks l' ∧ ∀ k, k ∈ ks ↔ Kept eq l k) ∧
      (∀ lt, OrderOn lt eq (· ∈ l) → l.Pairwise (fun a b => lt b a = false) →
        l'.Pairwise (fun a b => lt a b = true) ∧ ∀ x ∈ l, ∃ y ∈ l', eq x y = true) := by
  obtain ⟨_, s, _, _, h⟩ := hr.rel
  have hsl : s.l v = l := by rw [← h.list v hv]; exact hl.slice
  have hlen := hl.len
  suffices hm : ∃ m', exec E g P m (if func then .compactFunc v eq else .compact v) = some (m', .unit) ∧
      Shows E g m' v (dedup eq l) by
    obtain ⟨m', e1, e2⟩ := hm
    exact ⟨m', _, e1, e2, dedup_picks eq l, fun lt o hs => dedup_sorted_on o hs⟩
  cases func with
  | true =>
    rcases step' (E := E) (g := g) (P := P) h (.compactFunc v eq) (by intro w hw; injection hw with hw; omega) with
      ⟨e, _⟩ | ⟨m', r, s', p, e1, e2, e3, e4⟩
    · cases e
    · simp only [spec, hsl, Option.some.injEq, Prod.mk.injEq] at e2
      obtain ⟨e2, e5⟩ := e2
      subst e2; subst e5
      have hnv : m'.nv = s.n := e3.n
      have hsh := e3.shows (E := E) (g := g) (v := v) (by rw [hnv, ← h.n]; exact hv)
      simp only [SState.put, if_true] at hsh
      exact ⟨m', by rw [if_pos rfl, e1, e4], hsh⟩
  | false =>
    by_cases hshort : m.len v < 2
    · exact ⟨m, by simp [exec, hshort], by rw [dedup_short (by omega)]; exact hl⟩
    · rcases step' (E := E) (g := g) (P := P) h (.compact v) (by intro w hw; injection hw with hw; omega) with
        ⟨e, _⟩ | ⟨m', r, s', p, e1, e2, e3, e4⟩
      · simp [exec, hshort, h2 rfl] at e
      · simp only [spec, hsl] at e2
        rw [if_neg (by omega), ← h.eqOf, h2 rfl] at e2
        simp only [Option.some.injEq, Prod.mk.injEq] at e2
        obtain ⟨e2, e5⟩ := e2
        subst e2; subst e5
        have hnv : m'.nv = s.n := e3.n
        have hsh := e3.shows (E := E) (g := g) (v := v) (by rw [hnv, ← h.n]; exact hv)
        simp only [SState.put, if_true] at hsh
        exact ⟨m', by rw [if_neg (by simp), e1, e4], hsh⟩

/-! ## C60: comparing vectors -/

/-- Lexicographic order. -/
inductive LexLt (lt eq : T → T → Bool) : List T → List T → Prop
  | nil (b l) : LexLt lt eq [] (b :: l)
  | head {a b l l'} : lt a b = true → LexLt lt eq (a :: l) (b :: l')
  | tail {a b l l'} : eq a b = true → LexLt lt eq l l' → LexLt lt eq (a :: l) (b :: l')

theorem compareLoop_spec {lt eq : T → T → Bool} (o : Order lt eq) : ∀ l l' : List T,
    ∃ c, compareLoop (three? (some lt) (some eq)) l l' = some c ∧
      ((c = -1 ∧ LexLt lt eq l l') ∨ (c = 0 ∧ List.Forall₂ (fun a b => eq a b = true) l l') ∨
        (c = 1 ∧ LexLt lt eq l' l)) := by
  intro l
  induction l with
  | nil =>
    intro l'
    cases l' with
    | nil => exact ⟨0, rfl, .inr (.inl ⟨rfl, .nil⟩)⟩
    | cons b l' => exact ⟨-1, rfl, .inl ⟨rfl, .nil ..⟩⟩
  | cons a l ih =>
    intro l'
    cases l' with
    | nil => exact ⟨1, rfl, .inr (.inr ⟨rfl, .nil ..⟩)⟩
    | cons b l' =>
      obtain ⟨c, h1, h2⟩ := ih l'
      simp only [compareLoop, three?_some, Option.bind_eq_bind, Option.bind_some]
      by_cases hlt : lt a b
      · refine ⟨-1, by simp [three, hlt], .inl ⟨rfl, .head hlt⟩⟩
      · by_cases he : eq a b
        · refine ⟨c, by simp [three, hlt, he, h1], ?_⟩
          have he' : eq b a = true := (o.eq _ _).2 ((o.eq _ _).1 he).symm
          rcases h2 with ⟨e, h⟩ | ⟨e, h⟩ | ⟨e, h⟩
          · exact .inl ⟨e, .tail he h⟩
          · exact .inr (.inl ⟨e, .cons he h⟩)
          · exact .inr (.inr ⟨e, .tail he' h⟩)
        · refine ⟨1, by simp [three, hlt, he], .inr (.inr ⟨rfl, .head ?_⟩)⟩
          cases h : lt b a with
          | true => rfl
          | false => exact absurd ((o.eq a b).2 ⟨by simpa using hlt, h⟩) he

theorem LexLt.irrefl_eq {lt eq : T → T → Bool} (o : Order lt eq) {l l' : List T} (h : LexLt lt eq l l') :
    ¬ List.Forall₂ (fun a b => eq a b = true) l l' ∧ ¬ List.Forall₂ (fun a b => eq a b = true) l' l ∧
    ¬ LexLt lt eq l' l := by
  induction h with
  | nil => exact ⟨by rintro ⟨⟩, by rintro ⟨⟩, by rintro ⟨⟩⟩
  | @head a b l l' h =>
    refine ⟨?_, ?_, ?_⟩
    · intro hf; cases hf with | cons he _ => rw [((o.eq _ _).1 he).1] at h; cases h
    · intro hf; cases hf with | cons he _ => rw [((o.eq _ _).1 he).2] at h; cases h
    · intro hf
      cases hf with
      | head h' => rw [o.asymm _ _ h'] at h; cases h
      | tail he _ => rw [((o.eq _ _).1 he).2] at h; cases h
  | @tail a b l l' h _ ih =>
    refine ⟨?_, ?_, ?_⟩
    · intro hf; cases hf with | cons _ hf => exact ih.1 hf
    · intro hf; cases hf with | cons _ hf => exact ih.2.1 hf
    · intro hf
      cases hf with
      | head h' => rw [((o.eq _ _).1 h).2] at h'; cases h'
      | tail _ h' => exact ih.2.2 h'

theorem compare_list {lt eq : T → T → Bool} (o : Order lt eq) (l l' : List T) :
    ∃ c, compareLoop (three? (some lt) (some eq)) l l' = some c ∧ (c = -1 ∨ c = 0 ∨ c = 1) ∧ (c = -1 ↔ LexLt lt eq l l') ∧
      (c = 0 ↔ List.Forall₂ (fun a b => eq a b = true) l l') ∧ (c = 1 ↔ LexLt lt eq l' l) := by
  obtain ⟨c, e1, e2⟩ := compareLoop_spec o l l'
  refine ⟨c, e1, ?_⟩
  rcases e2 with ⟨e, h⟩ | ⟨e, h⟩ | ⟨e, h⟩ <;> subst e
  · simp [h, h.irrefl_eq o]
  · refine ⟨by simp, ?_, by simp [h], ?_⟩
    · exact ⟨fun h' => absurd h' (by decide), fun h' => absurd h (h'.irrefl_eq o).1⟩
    · exact ⟨fun h' => absurd h' (by decide), fun h' => absurd h (h'.irrefl_eq o).2.1⟩
  · simp [h, h.irrefl_eq o]

/-- C60: `Compare` is the lexicographic comparison, by the order of the receiver. -/
theorem C60_compare {v w : Nat} {l l' : List T} (hl : Shows E g m v l) (hl' : Shows E g m w l')
    {lt eq : T → T → Bool} (o : Order lt eq) (h1 : m.less E v = some lt) (h2 : m.eq E v = some eq) :
    ∃ c, m.compare E v w = some c ∧ (c = -1 ∨ c = 0 ∨ c = 1) ∧ (c = -1 ↔ LexLt lt eq l l') ∧
      (c = 0 ↔ List.Forall₂ (fun a b => eq a b = true) l l') ∧ (c = 1 ↔ LexLt lt eq l' l) := by
  unfold VMem.compare VMem.compareFunc
  rw [h1, h2, hl.list, hl'.list]
  exact compare_list o l l'

theorem equalLoop_spec (eq : T → T → Bool) : ∀ l l' : List T, l.length = l'.length →
    ∃ b, equalLoop (call (some eq)) l l' = some b ∧ (b = true ↔ List.Forall₂ (fun a b => eq a b = true) l l') := by
  intro l
  induction l with
  | nil =>
    intro l' h
    have : l' = [] := List.length_eq_zero_iff.1 h.symm
    subst this
    exact ⟨true, rfl, by simp⟩
  | cons a l ih =>
    intro l' h
    cases l' with
    | nil => simp at h
    | cons b l' =>
      obtain ⟨r, h1, h2⟩ := ih l' (by simpa using h)
      by_cases he : eq a b
      · exact ⟨r, by simp [equalLoop, call, he]; exact h1, by simp [h2, he]⟩
      · exact ⟨false, by simp [equalLoop, call, he], by simp [he]⟩

theorem equalFunc_spec (eq : T → T → Bool) (l l' : List T) :
    ∃ b, equalFunc (call (some eq)) l l' = some b ∧ (b = true ↔ List.Forall₂ (fun a b => eq a b = true) l l') := by
  unfold equalFunc
  split
  · next h => exact ⟨false, rfl, by simp; intro h'; exact h h'.length_eq⟩
  · next h => exact equalLoop_spec eq l l' (by simpa using h)

/-- C60: `EqualVec` and `EqualSlice` (and the variants with an equality given by the caller) say
whether lengths are the same and the elements at each index equal. -/
theorem C60_equal {v w : Nat} {l l' : List T} (hl : Shows E g m v l) (hl' : Shows E g m w l')
    {eq : T → T → Bool} (h2 : m.eq E v = some eq) :
    (∃ b, m.equalVec E v w = some b ∧ (b = true ↔ List.Forall₂ (fun a b => eq a b = true) l l')) ∧
    (∀ k, ∃ b, m.equalSlice E v k = some b ∧ (b = true ↔ List.Forall₂ (fun a b => eq a b = true) l k)) ∧
    (∀ eq', ∃ b, m.equalVecFunc v w (some eq') = some b ∧ (b = true ↔ List.Forall₂ (fun a b => eq' a b = true) l l')) ∧
    (∀ eq' k, ∃ b, m.equalSliceFunc v k (some eq') = some b ∧
      (b = true ↔ List.Forall₂ (fun a b => eq' a b = true) l k)) := by
  unfold VMem.equalVec VMem.equalSlice VMem.equalVecFunc VMem.equalSliceFunc
  rw [h2, hl.list, hl'.list]
  exact ⟨equalFunc_spec eq l l', fun k => equalFunc_spec eq l k, fun eq' => equalFunc_spec eq' l l',
    fun eq' k => equalFunc_spec eq' l k⟩

/-- `Less(i, j)` and `Equal(i, j)` compare the elements at the two indices; out of range they panic. -/
theorem C60_at {h : List (Mut T)} {rs : List (Res T)} (hr : Run E g P h rs m) {v : Nat} (hv : v < m.nv)
    {l : List T} (hl : Shows E g m v l) {lt eq : T → T → Bool}
    (h1 : m.less E v = some lt) (h2 : m.eq E v = some eq) :
    (∀ (i j : Nat) a b, l[i]? = some a → l[j]? = some b →
      m.lessAt E v i j = some (lt a b) ∧ m.equalAt E v i j = some (eq a b)) ∧
    (∀ i j : Int, ¬ (0 ≤ i ∧ i < l.length ∧ 0 ≤ j ∧ j < l.length) →
      m.lessAt E v i j = none ∧ m.equalAt E v i j = none) := by
  obtain ⟨_, s, _, _, h⟩ := hr.rel
  have hsl : s.l v = l := by rw [← h.list v hv]; exact hl.slice
  have hlen := hl.len
  constructor
  · intro i j a b ha hb
    have hi := at_lt ha
    have hj := at_lt hb
    have e1 := h.at_eq (E := E) hv (i := i) (by rw [hsl]; exact hi)
    have e2 := h.at_eq (E := E) hv (i := j) (by rw [hsl]; exact hj)
    rw [hsl, ha] at e1; rw [hsl, hb] at e2
    unfold VMem.lessAt VMem.equalAt
    rw [if_pos (by omega), if_pos (by omega), h1, h2]
    simp [call, e1, e2]
  · intro i j hn
    unfold VMem.lessAt VMem.equalAt
    rw [if_neg (by omega), if_neg (by omega)]
    exact ⟨rfl, rfl⟩

end Verif.Vec
