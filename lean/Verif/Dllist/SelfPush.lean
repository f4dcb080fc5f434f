import Verif.Dllist.Props
/-!
# C136 (C33 for `other == l`): what `PushFrontListTo(l, mark)` and `PushBackListTo(l, mark)` do to `l`

Both calls walk over the list they insert into (dllist.go:180-203).  The new elements go directly
after `mark`, so a walk that starts or arrives behind `mark` meets its own insertions.
-/
namespace Verif.Dllist
open Spec (Op Res St Client SRun Safe valsOf insBefore insAfter nextOf prevOf exchange)
variable {T : Type} {m : Mem T} {s : St T} {S : Nat → List Nat}

/-- One insertion after `mark` in the list the loop walks over. -/
theorem Sim.insertMark (h : Sim m s S) {l mark : Nat} {P R : List Nat}
    (hs : s.seq l = P ++ mark :: R) (v : T) :
    ∃ m' s' S', Dllist.insertValue m l v (some (.node mark)) = some (m', m.fresh) ∧
      s.Alloc [m.fresh] [v] l (P ++ mark :: m.fresh :: R) s' ∧ Sim m' s' S' := by
  have hP : mark ∉ P := by
    have := h.nodup l
    rw [hs, List.nodup_append] at this
    exact fun hc => this.2.2 mark hc mark (by simp) rfl
  obtain ⟨m2, s2, S2, e2, ha2, hsim2, _⟩ := (h.insertAt (l := l) (mark := mark) (by rw [hs]; simp) v).1
  rw [hs, insAfter_eq hP] at ha2
  exact ⟨m2, s2, S2, e2, by simpa using ha2, hsim2⟩

/-- The new handle has the value given. -/
theorem Spec.St.Alloc.val_one {s s' : St T} {n : Nat} {v : T} {l xs}
    (h : s.Alloc [n] [v] l xs s') : s'.val n = some v := by
  have h1 := h.2.2.2.2.1
  cases e : s'.val n with
  | none => simp [valsOf, e] at h1
  | some w => simp [valsOf, e] at h1; rw [h1]

/-! ## `PushBackListTo(l, mark)` -/

/-- The walk in front of `mark`: nothing it inserts is met. -/
theorem back_before {l mark : Nat} {s0 : St T} {P Q : List Nat}
    (hP : ∀ n ∈ P, s0.val n ≠ none) (k : Nat) :
    ∀ (rest done ns : List Nat) (m1 : Mem T) (s1 : St T) S1, P = done ++ rest →
      s0.Alloc ns (valsOf s0.val done).reverse l (P ++ mark :: (ns ++ Q)) s1 → Sim m1 s1 S1 →
      ∃ ns' m2 s2 S2, pushBackListToLoop l mark (rest.length + k) m1
          ((rest ++ [mark]).head?.map .node) =
            pushBackListToLoop l mark k m2 (some (.node mark)) ∧
        s0.Alloc ns' (valsOf s0.val P).reverse l (P ++ mark :: (ns' ++ Q)) s2 ∧ Sim m2 s2 S2 := by
  intro rest
  induction rest with
  | nil =>
    intro done ns m1 s1 S1 hL ha hsim
    refine ⟨ns, m1, s1, S1, by simp, ?_, hsim⟩
    have : P = done := by simpa using hL
    rw [this] at ha ⊢; exact ha
  | cons e rest ih =>
    intro done ns m1 s1 S1 hL ha hsim
    have he : e ∈ P := by rw [hL]; simp
    obtain ⟨v, hv⟩ := Option.ne_none_iff_exists'.1 (hP e he)
    have hv1 : s1.val e = some v := by rw [ha.old (hP e he), hv]
    obtain ⟨m2, s2, S2, e2, ha2, hsim2⟩ := hsim.insertMark ha.seq_self v
    have ha' := (ha.trans ha2).2
    have hd : [v] ++ (valsOf s0.val done).reverse = (valsOf s0.val (done ++ [e])).reverse := by
      simp [valsOf, hv]
    rw [hd] at ha'
    have hnext : elNext m2 (.node e) = (rest ++ [mark]).head?.map .node := by
      have hseq : s2.seq l = done ++ e :: (rest ++ (mark :: m1.fresh :: (ns ++ Q))) := by
        rw [ha'.seq_self]
        conv => lhs; rw [hL]
        simp
      rw [hsim2.elNext hseq]; cases rest <;> simp
    obtain ⟨ns', m3, s3, S3, e3, ha3, hsim3⟩ := ih (done ++ [e]) ([m1.fresh] ++ ns) m2 s2 S2
      (by rw [hL]; simp) (by simpa using ha') hsim2
    refine ⟨ns', m3, s3, S3, ?_, ha3, hsim3⟩
    rw [← e3, ← hnext, List.length_cons, show rest.length + 1 + k = rest.length + k + 1 by omega]
    simp only [List.cons_append, List.head?_cons, Option.map_some, pushBackListToLoop,
      Option.bind_eq_bind, Option.bind_some, Dllist.value, hsim.val e v hv1, e2]

/-- The walk behind `mark`: what it inserts is in front of it, so it goes over `Z`, the elements
behind `mark` at its start. -/
theorem back_behind {l mark : Nat} {s0 : St T} {P Z : List Nat}
    (hZ : ∀ n ∈ Z, s0.val n ≠ none) :
    ∀ (rest done ns : List Nat) (todo : List Nat) (m1 : Mem T) (s1 : St T) S1,
      Z = done ++ rest ++ todo →
      s0.Alloc ns (valsOf s0.val done).reverse l (P ++ mark :: (ns ++ Z)) s1 → Sim m1 s1 S1 →
      ∃ ns' m2 s2 S2, pushBackListToLoop l mark rest.length m1 ((rest ++ todo).head?.map .node) =
          some m2 ∧
        s0.Alloc ns' (valsOf s0.val (done ++ rest)).reverse l (P ++ mark :: (ns' ++ Z)) s2 ∧
        Sim m2 s2 S2 := by
  intro rest
  induction rest with
  | nil =>
    intro done ns todo m1 s1 S1 hL ha hsim
    exact ⟨ns, m1, s1, S1, rfl, by simpa using ha, hsim⟩
  | cons e rest ih =>
    intro done ns todo m1 s1 S1 hL ha hsim
    have he : e ∈ Z := by rw [hL]; simp
    obtain ⟨v, hv⟩ := Option.ne_none_iff_exists'.1 (hZ e he)
    have hv1 : s1.val e = some v := by rw [ha.old (hZ e he), hv]
    obtain ⟨m2, s2, S2, e2, ha2, hsim2⟩ := hsim.insertMark ha.seq_self v
    have ha' := (ha.trans ha2).2
    have hd : [v] ++ (valsOf s0.val done).reverse = (valsOf s0.val (done ++ [e])).reverse := by
      simp [valsOf, hv]
    rw [hd] at ha'
    have hnext : elNext m2 (.node e) = (rest ++ todo).head?.map .node := by
      have hseq : s2.seq l = (P ++ mark :: m1.fresh :: (ns ++ done)) ++ e :: (rest ++ todo) := by
        rw [ha'.seq_self]
        conv => lhs; rw [hL]
        simp
      exact hsim2.elNext hseq
    obtain ⟨ns', m3, s3, S3, e3, ha3, hsim3⟩ := ih (done ++ [e]) ([m1.fresh] ++ ns) todo m2 s2 S2
      (by rw [hL]; simp) (by simpa using ha') hsim2
    refine ⟨ns', m3, s3, S3, ?_, by simpa using ha3, hsim3⟩
    rw [← e3, ← hnext]
    simp only [List.length_cons, List.cons_append, List.head?_cons, Option.map_some,
      pushBackListToLoop, Option.bind_eq_bind, Option.bind_some, Dllist.value, hsim.val e v hv1, e2]

theorem valsOf_take {f : Nat → Option T} {xs : List Nat} (h : ∀ n ∈ xs, f n ≠ none) (k : Nat) :
    valsOf f (xs.take k) = (valsOf f xs).take k := by
  induction xs generalizing k with
  | nil => simp [valsOf]
  | cons x xs ih =>
    obtain ⟨w, hw⟩ := Option.ne_none_iff_exists'.1 (h x (by simp))
    cases k with
    | zero => simp [valsOf]
    | succ k =>
      have := ih (fun n hn => h n (by simp [hn])) k
      simp only [valsOf] at this
      simp [valsOf, hw, this]

theorem valsOf_length {f : Nat → Option T} {xs : List Nat} (h : ∀ n ∈ xs, f n ≠ none) :
    (valsOf f xs).length = xs.length := by
  induction xs with
  | nil => rfl
  | cons x xs ih =>
    obtain ⟨w, hw⟩ := Option.ne_none_iff_exists'.1 (h x (by simp))
    have := ih (fun n hn => h n (by simp [hn]))
    simp only [valsOf] at this
    simp [valsOf, hw, this]

theorem getLast?_append_ne {α : Type} (xs : List α) {ys : List α} (h : ys ≠ []) :
    (xs ++ ys).getLast? = ys.getLast? := by
  rcases eq_nil_or_snoc ys with rfl | ⟨t, e, rfl⟩
  · exact absurd rfl h
  · rw [← List.append_assoc, List.getLast?_concat, List.getLast?_concat]

/-- What is inserted by `PushBackListTo(l, mark)` on the values `xs`, `v` (of `mark`), `ys`. -/
theorem Sim.pushBackListTo_self (h : Sim m s S) {l mark : Nat} {P Q : List Nat} {v : T}
    (hs : s.seq l = P ++ mark :: Q) (hv : s.val mark = some v) :
    ∃ m' s' S' ns, Dllist.pushBackListTo m l l mark = some m' ∧
      s.Alloc ns (valsOf s.val P ++ [v] ++
        (v :: (valsOf s.val P).reverse ++ valsOf s.val Q).take Q.length).reverse l
        (P ++ mark :: (ns ++ Q)) s' ∧ Sim m' s' S' := by
  have hm : mark ∈ s.seq l := by rw [hs]; simp
  have hl := h.mem_lists hm
  have hel : ∀ n ∈ s.seq l, s.val n ≠ none := fun n hn => h.elems l n hn
  unfold Dllist.pushBackListTo
  rw [if_neg (by simpa using h.rep.owner l mark (h.memS hm))]
  obtain ⟨m2, e2, hs2, -⟩ := h.front hl
  have hlen : (m.len l).toNat = P.length + (Q.length + 1) := by
    rw [h.rep.len, h.seq l hl, hs]; simp; omega
  have hP : ∀ n ∈ P, s.val n ≠ none := fun n hn => hel n (by rw [hs]; simp [hn])
  have hQ : ∀ n ∈ Q, s.val n ≠ none := fun n hn => hel n (by rw [hs]; simp [hn])
  obtain ⟨n1, m3, s3, S3, e3, ha3, hsim3⟩ := back_before (l := l) (mark := mark) (Q := Q) hP
    (Q.length + 1) P [] [] m2 s S rfl
    (by have := St.Alloc.refl s l; rw [hs] at this; simpa [valsOf] using this) hs2
  have hv3 : s3.val mark = some v := by rw [ha3.old (by rw [hv]; simp), hv]
  obtain ⟨m4, s4, S4, e4, ha4, hsim4⟩ := hsim3.insertMark ha3.seq_self v
  have hnext : Dllist.elNext m4 (.node mark) = some (.node m3.fresh) := by
    rw [hsim4.elNext ha4.seq_self]; simp
  -- the elements behind `mark` now
  have hZ4 : ∀ n ∈ m3.fresh :: (n1 ++ Q), s4.val n ≠ none := by
    intro n hn
    exact hsim4.elems l n (by rw [ha4.seq_self]; simp at hn ⊢; right; right; exact hn)
  have hlq : Q.length ≤ (m3.fresh :: (n1 ++ Q)).length := by simp; omega
  obtain ⟨n2, m5, s5, S5, e5, ha5, hsim5⟩ := back_behind (l := l) (mark := mark) (P := P) hZ4
    ((m3.fresh :: (n1 ++ Q)).take Q.length) [] [] ((m3.fresh :: (n1 ++ Q)).drop Q.length)
    m4 s4 S4 (by simp) (by
      have := St.Alloc.refl s4 l
      rw [ha4.seq_self] at this
      simpa [valsOf] using this) hsim4
  have hval : valsOf s4.val (m3.fresh :: (n1 ++ Q)) =
      v :: (valsOf s.val P).reverse ++ valsOf s.val Q := by
    have h1 : valsOf s4.val n1 = (valsOf s.val P).reverse := by
      rw [← ha3.2.2.2.2.1]
      refine valsOf_congr fun n hn => ha4.old ?_
      have := ha3.2.2.2.2.2.1 n hn
      intro hc; rw [hc] at this; simp at this
    have h2 : valsOf s4.val Q = valsOf s.val Q :=
      valsOf_congr fun n hn => by
        rw [ha4.old (by rw [ha3.old (hQ n hn)]; exact hQ n hn), ha3.old (hQ n hn)]
    rw [show m3.fresh :: (n1 ++ Q) = [m3.fresh] ++ (n1 ++ Q) from rfl, valsOf_append,
      valsOf_append, h1, h2]
    simp [valsOf, ha4.val_one]
  rw [List.nil_append, valsOf_take hZ4, hval] at ha5
  refine ⟨m5, s5, S5, n2 ++ m3.fresh :: n1, ?_, ?_, hsim5⟩
  · simp only [e2, hlen, hs]
    have : (P ++ mark :: Q).head? = (P ++ [mark]).head? := by cases P <;> simp
    rw [this, e3]
    simp only [pushBackListToLoop, Option.bind_eq_bind, Option.bind_some, Dllist.value,
      hsim3.val mark v hv3, e4, hnext]
    rw [List.length_take, Nat.min_eq_left hlq, List.take_append_drop] at e5
    exact e5
  · have hfin := (ha3.trans ha4).2
    have := (hfin.trans ha5).2
    simpa using this

/-! ## `PushFrontListTo(l, mark)` -/

/-- The walk in front of `mark` and on `mark`, nothing behind `mark` at the start. -/
theorem front_before {l mark : Nat} {s0 : St T} {L : List Nat}
    (hL0 : ∀ n ∈ L, s0.val n ≠ none) :
    ∀ (k : Nat) (rest done ns : List Nat) (m1 : Mem T) (s1 : St T) S1, rest.length = k →
      L = rest ++ done →
      s0.Alloc ns (valsOf s0.val done) l (L ++ ns) s1 → Sim m1 s1 S1 → L.getLast? = some mark →
      ∃ ns' m2 s2 S2, pushFrontListToLoop l mark k m1 (rest.getLast?.map .node) = some m2 ∧
        s0.Alloc ns' (valsOf s0.val L) l (L ++ ns') s2 ∧ Sim m2 s2 S2 := by
  intro k
  induction k with
  | zero =>
    intro rest done ns m1 s1 S1 hr hL ha hsim _
    have : rest = [] := List.eq_nil_of_length_eq_zero hr
    subst this
    refine ⟨ns, m1, s1, S1, rfl, ?_, hsim⟩
    have : L = done := by simpa using hL
    rw [this] at ha ⊢; exact ha
  | succ k ih =>
    intro rest done ns m1 s1 S1 hr hL ha hsim hlast
    rcases eq_nil_or_snoc rest with rfl | ⟨t, e, rfl⟩
    · simp at hr
    have he : e ∈ L := by rw [hL]; simp
    obtain ⟨v, hv⟩ := Option.ne_none_iff_exists'.1 (hL0 e he)
    have hv1 : s1.val e = some v := by rw [ha.old (hL0 e he), hv]
    obtain ⟨P, hP⟩ := List.getLast?_eq_some_iff.1 hlast
    obtain ⟨m2, s2, S2, e2, ha2, hsim2⟩ := hsim.insertMark (P := P) (R := ns) (mark := mark) (l := l)
      (by rw [ha.seq_self, hP]; simp) v
    have ha' := (ha.trans ha2).2
    have hd : [v] ++ valsOf s0.val done = valsOf s0.val (e :: done) := by simp [valsOf, hv]
    rw [hd] at ha'
    have hx : P ++ mark :: m1.fresh :: ns = L ++ ([m1.fresh] ++ ns) := by rw [hP]; simp
    rw [hx] at ha'
    have hprev : elPrev m2 (.node e) = t.getLast?.map .node := by
      have hseq : s2.seq l = t ++ e :: (done ++ ([m1.fresh] ++ ns)) := by
        rw [ha'.seq_self, hL]; simp
      exact hsim2.elPrev hseq
    obtain ⟨ns', m3, s3, S3, e3, ha3, hsim3⟩ := ih t (e :: done) ([m1.fresh] ++ ns) m2 s2 S2
      (by simpa using hr) (by rw [hL]; simp) ha' hsim2 hlast
    refine ⟨ns', m3, s3, S3, ?_, ha3, hsim3⟩
    simp only [List.getLast?_append, List.getLast?_singleton, Option.map_some,
      pushFrontListToLoop, Option.bind_eq_bind, Option.bind_some, Dllist.value,
      hsim.val e v hv1, e2, Option.some_or, hprev]
    exact e3

/-- `W` read backwards repeats the last `q` of its values. -/
def Periodic (q : Nat) (B W : List T) : Prop :=
  ∀ i, i < W.length → W.reverse[i]? = B.reverse[i % q]?

/-- The walk behind `mark`, `Q` (not empty) being there at the start: it stays `Q.length` elements
behind `mark`. -/
theorem front_behind {l mark : Nat} {s0 : St T} {P Q : List Nat} (hq : Q ≠ []) :
    ∀ (k : Nat) (ns : List Nat) (vs : List T) (m1 : Mem T) (s1 : St T) S1,
      s0.Alloc ns vs l (P ++ mark :: (ns ++ Q)) s1 → Sim m1 s1 S1 →
      Periodic Q.length (valsOf s0.val Q) (valsOf s1.val (ns ++ Q)) →
      ∃ ns' vs' m2 s2 S2, pushFrontListToLoop l mark k m1
          ((ns ++ Q)[Q.length - 1]?.map .node) = some m2 ∧
        s0.Alloc ns' vs' l (P ++ mark :: (ns' ++ Q)) s2 ∧ Sim m2 s2 S2 ∧
        ns'.length = ns.length + k ∧
        Periodic Q.length (valsOf s0.val Q) (valsOf s2.val (ns' ++ Q)) := by
  have hq0 : 0 < Q.length := List.length_pos_iff.2 hq
  intro k
  induction k with
  | zero => intro ns vs m1 s1 S1 ha hsim hp; exact ⟨ns, vs, m1, s1, S1, rfl, ha, hsim, rfl, hp⟩
  | succ k ih =>
    intro ns vs m1 s1 S1 ha hsim hp
    have hall : ∀ n ∈ ns ++ Q, s1.val n ≠ none := fun n hn =>
      hsim.elems l n (by rw [ha.seq_self]; simp at hn ⊢; right; right; exact hn)
    have hi : Q.length - 1 < (ns ++ Q).length := by simp; omega
    let e := (ns ++ Q)[Q.length - 1]
    have hsplit : ns ++ Q = (ns ++ Q).take (Q.length - 1) ++ e :: (ns ++ Q).drop Q.length := by
      conv => lhs; rw [← List.take_append_drop (Q.length - 1) (ns ++ Q)]
      rw [List.drop_eq_getElem_cons hi, show Q.length - 1 + 1 = Q.length by omega]
    have hem : e ∈ ns ++ Q := List.getElem_mem hi
    obtain ⟨v, hv⟩ := Option.ne_none_iff_exists'.1 (hall e hem)
    obtain ⟨m2, s2, S2, e2, ha2, hsim2⟩ := hsim.insertMark ha.seq_self v
    have ha' := (ha.trans ha2).2
    have hold : valsOf s2.val (ns ++ Q) = valsOf s1.val (ns ++ Q) :=
      valsOf_congr fun n hn => ha2.old (hall n hn)
    have hlenv := valsOf_length hall
    -- the value copied
    have hve : (valsOf s1.val (ns ++ Q)).reverse[ns.length]? = some v := by
      rw [List.getElem?_reverse (by rw [hlenv]; simp; omega), hlenv, List.length_append,
        show ns.length + Q.length - 1 - ns.length = Q.length - 1 by omega]
      have h1 : valsOf s1.val (ns ++ Q) = valsOf s1.val ((ns ++ Q).take (Q.length - 1)) ++
          v :: valsOf s1.val ((ns ++ Q).drop Q.length) := by
        conv => lhs; rw [hsplit]
        rw [valsOf_append]; simp [valsOf, hv]
      have h2 : (valsOf s1.val ((ns ++ Q).take (Q.length - 1))).length = Q.length - 1 := by
        rw [valsOf_take hall, List.length_take, hlenv]; omega
      rw [h1, List.getElem?_append_right (by omega), h2]; simp
    have hp2 : Periodic Q.length (valsOf s0.val Q) (valsOf s2.val ([m1.fresh] ++ ns ++ Q)) := by
      have hw : valsOf s2.val ([m1.fresh] ++ ns ++ Q) = v :: valsOf s1.val (ns ++ Q) := by
        rw [List.append_assoc, valsOf_append, hold]; simp [valsOf, ha2.val_one]
      rw [hw]
      intro i hi
      rw [List.reverse_cons]
      by_cases hc : i < (valsOf s1.val (ns ++ Q)).length
      · rw [List.getElem?_append_left (by simpa using hc)]; exact hp i hc
      · have hie : i = ns.length + Q.length := by
          simp only [List.length_cons] at hi
          rw [hlenv, List.length_append] at hi hc; omega
        rw [List.getElem?_append_right (by rw [List.length_reverse]; omega), hie,
          List.length_reverse, hlenv, Nat.add_mod_right,
          ← hp ns.length (by rw [hlenv]; simp; omega), hve]
        simp
    have hprev : elPrev m2 (.node e) = ([m1.fresh] ++ ns ++ Q)[Q.length - 1]?.map .node := by
      have hseq : s2.seq l = (P ++ mark :: m1.fresh :: (ns ++ Q).take (Q.length - 1)) ++
          e :: (ns ++ Q).drop Q.length := by
        rw [ha2.seq_self]
        conv => lhs; rw [hsplit]
        simp
      rw [hsim2.elPrev hseq]
      congr 1
      rw [show P ++ mark :: m1.fresh :: (ns ++ Q).take (Q.length - 1) =
        (P ++ [mark]) ++ (m1.fresh :: (ns ++ Q).take (Q.length - 1)) by simp,
        getLast?_append_ne _ (by simp), List.getLast?_eq_getElem?]
      rw [show m1.fresh :: (ns ++ Q).take (Q.length - 1) = ([m1.fresh] ++ ns ++ Q).take Q.length by
        rw [List.append_assoc, List.singleton_append]
        conv => rhs; rw [show Q.length = Q.length - 1 + 1 by omega]
        rw [List.take_succ_cons]]
      rw [List.length_take, Nat.min_eq_left (by simp; omega), List.getElem?_take,
        if_pos (by omega)]
    obtain ⟨ns', vs', m3, s3, S3, e3, ha3, hsim3, hl3, hp3⟩ := ih ([m1.fresh] ++ ns) ([v] ++ vs)
      m2 s2 S2 (by simpa using ha') hsim2 hp2
    refine ⟨ns', vs', m3, s3, S3, ?_, ha3, hsim3, by rw [hl3]; simp; omega, hp3⟩
    rw [List.getElem?_eq_getElem hi]
    simp only [Option.map_some, pushFrontListToLoop, Option.bind_eq_bind, Option.bind_some,
      Dllist.value]
    have : m1.val e = some v := hsim.val e v hv
    simp only [e] at this
    rw [this]
    simp only [Option.bind_some, e2]
    simp only [e] at hprev
    rw [hprev]; exact e3

/-- `PushFrontListTo(l, mark)` with `mark` the last element. -/
theorem Sim.pushFrontListTo_last (h : Sim m s S) {l mark : Nat} {P : List Nat}
    (hs : s.seq l = P ++ [mark]) :
    ∃ m' s' S' ns, Dllist.pushFrontListTo m l l mark = some m' ∧
      s.Alloc ns (valsOf s.val (s.seq l)) l (s.seq l ++ ns) s' ∧ Sim m' s' S' := by
  have hm : mark ∈ s.seq l := by rw [hs]; simp
  have hl := h.mem_lists hm
  unfold Dllist.pushFrontListTo
  rw [if_neg (by simpa using h.rep.owner l mark (h.memS hm))]
  obtain ⟨m2, e2, hs2, -⟩ := h.back hl
  have hlen : (m.len l).toNat = (s.seq l).length := by rw [h.rep.len, h.seq l hl]; simp
  obtain ⟨ns, m3, s3, S3, e3, ha3, hsim3⟩ := front_before (l := l) (mark := mark)
    (fun n hn => h.elems l n hn) _ (s.seq l) [] [] m2 s S rfl (by simp)
    (by simpa [valsOf] using St.Alloc.refl s l) hs2 (by rw [hs]; simp)
  exact ⟨m3, s3, S3, ns, by simp only [e2, hlen]; exact e3, ha3, hsim3⟩

/-- `PushFrontListTo(l, mark)` with `mark` not the last element. -/
theorem Sim.pushFrontListTo_inner (h : Sim m s S) {l mark : Nat} {P Q : List Nat} (hq : Q ≠ [])
    (hs : s.seq l = P ++ mark :: Q) :
    ∃ m' s' S' ns vs, Dllist.pushFrontListTo m l l mark = some m' ∧
      s.Alloc ns vs l (P ++ mark :: (ns ++ Q)) s' ∧ Sim m' s' S' ∧
      vs.length = (s.seq l).length ∧ Periodic Q.length (valsOf s.val Q) (vs ++ valsOf s.val Q) := by
  have hm : mark ∈ s.seq l := by rw [hs]; simp
  have hl := h.mem_lists hm
  have hQ : ∀ n ∈ Q, s.val n ≠ none := fun n hn => h.elems l n (by rw [hs]; simp [hn])
  have hq0 : 0 < Q.length := List.length_pos_iff.2 hq
  unfold Dllist.pushFrontListTo
  rw [if_neg (by simpa using h.rep.owner l mark (h.memS hm))]
  obtain ⟨m2, e2, hs2, -⟩ := h.back hl
  have hlen : (m.len l).toNat = (s.seq l).length := by rw [h.rep.len, h.seq l hl]; simp
  obtain ⟨ns, vs, m3, s3, S3, e3, ha3, hsim3, hn3, hp3⟩ := front_behind (l := l) (mark := mark)
    (P := P) hq (s.seq l).length [] [] m2 s S
    (by have := St.Alloc.refl s l; rw [hs] at this; simpa [valsOf] using this) hs2
    (by
      intro i hi
      rw [List.nil_append, valsOf_length hQ] at hi
      rw [Nat.mod_eq_of_lt hi]; rfl)
  have hns : ∀ n ∈ ns, s3.val n ≠ none := fun n hn => by
    have := ha3.2.2.2.2.2.1 n hn
    intro hc; rw [hc] at this; simp at this
  refine ⟨m3, s3, S3, ns, vs, ?_, ha3, hsim3, ?_, ?_⟩
  · simp only [e2, hlen]
    have : (s.seq l).getLast? = Q[Q.length - 1]? := by
      rw [hs, show P ++ mark :: Q = (P ++ [mark]) ++ Q by simp, getLast?_append_ne _ hq,
        List.getLast?_eq_getElem?]
    rw [this]; exact e3
  · rw [← ha3.2.2.2.2.1, valsOf_length hns, hn3]; simp
  · have hQ3 : valsOf s3.val Q = valsOf s.val Q := valsOf_congr fun n hn => ha3.old (hQ n hn)
    rw [valsOf_append, ha3.2.2.2.2.1, hQ3] at hp3
    exact hp3

/-! ## C136 -/

/-- `PushFrontListTo(l, mark)` on `l` itself does what C33 asks for when `mark` is the last element:
the values of `l` follow, in order. -/
theorem C136_pushFrontListTo_last {c : Client T} (hc : Safe c) {rs : List (Res T)}
    (h : MRun c rs m) {l mark : Nat} (hl : Res.list l ∈ rs) {xs : List (Nat × T)} {v : T}
    (hx : Shows m l (xs ++ [(mark, v)])) :
    ∃ m' zs, MStep m (.pushFrontListTo l l mark) .unit m' ∧
      zs.map (·.2) = (xs ++ [(mark, v)]).map (·.2) ∧
      Shows m' l (xs ++ [(mark, v)] ++ zs) ∧
      ∀ l', Res.list l' ∈ rs → l' ≠ l → ∀ us, Shows m l' us → Shows m' l' us := by
  obtain ⟨s, S, h1, h2⟩ := run_sim hc h
  have hll := srun_lists h1 hl
  have hsh := h2.shows_eq hll hx
  obtain ⟨ps, qs, he, hp, hq, hv⟩ := split_pairs (h2.elems l) hsh.symm
  have hqs : qs = [] := by
    have := valsOf_length (f := s.val) (xs := qs) (fun n hn => h2.elems l n (by rw [he]; simp [hn]))
    rw [← pairs_snd, hq] at this
    exact List.eq_nil_of_length_eq_zero this.symm
  rw [hqs] at he
  obtain ⟨m', s', S', ns, e, ha, h3⟩ := h2.pushFrontListTo_last he
  obtain ⟨⟨zs, hz, hz'⟩, ho'⟩ := shows_alloc (xs := s.seq l) (ys := [])
    h2.elems h3 hll (by simp) (by simpa using ha)
  refine ⟨m', zs, .of_exec fun _ => by simp only [exec, e]; rfl, ?_, ?_, ?_⟩
  · rw [hz, hsh, pairs_snd]
  · have : Shows m' l (pairs s (s.seq l) ++ (zs ++ pairs s [])) := hz'
    rw [← hsh] at this
    simpa [pairs] using this
  · intro l' hl' hne us hus
    rw [h2.shows_eq (srun_lists h1 hl') hus]; exact ho' l' (srun_lists h1 hl') hne

/-- `PushFrontListTo(l, mark)` on `l` itself when elements `ys` follow `mark`: as many values as `l`
has are inserted after `mark`, and read backwards from the end they repeat the values of `ys` over
and over; `mark` and what is in front of it is not copied. -/
theorem C136_pushFrontListTo_inner {c : Client T} (hc : Safe c) {rs : List (Res T)}
    (h : MRun c rs m) {l mark : Nat} (hl : Res.list l ∈ rs) {xs ys : List (Nat × T)} {v : T}
    (hx : Shows m l (xs ++ (mark, v) :: ys)) (hy : ys ≠ []) :
    ∃ m' zs, MStep m (.pushFrontListTo l l mark) .unit m' ∧
      zs.length = xs.length + 1 + ys.length ∧
      (∀ i, i < zs.length → zs.reverse[i]?.map (·.2) = ys.reverse[i % ys.length]?.map (·.2)) ∧
      Shows m' l (xs ++ (mark, v) :: (zs ++ ys)) ∧
      ∀ l', Res.list l' ∈ rs → l' ≠ l → ∀ us, Shows m l' us → Shows m' l' us := by
  obtain ⟨s, S, h1, h2⟩ := run_sim hc h
  have hll := srun_lists h1 hl
  have hsh := h2.shows_eq hll hx
  obtain ⟨ps, qs, he, hp, hq, hv⟩ := split_pairs (h2.elems l) hsh.symm
  have hQ : ∀ n ∈ qs, s.val n ≠ none := fun n hn => h2.elems l n (by rw [he]; simp [hn])
  have hP : ∀ n ∈ ps, s.val n ≠ none := fun n hn => h2.elems l n (by rw [he]; simp [hn])
  have hlq : ys.length = qs.length := by
    rw [← hq, ← valsOf_length hQ, ← pairs_snd, List.length_map]
  have hlp : xs.length = ps.length := by
    rw [← hp, ← valsOf_length hP, ← pairs_snd, List.length_map]
  have hq0 : 0 < qs.length := by rw [← hlq]; exact List.length_pos_iff.2 hy
  obtain ⟨m', s', S', ns, vs, e, ha, h3, hvl, hper⟩ :=
    h2.pushFrontListTo_inner (List.length_pos_iff.1 hq0) he
  obtain ⟨⟨zs, hz, hz'⟩, ho'⟩ := shows_alloc (xs := ps ++ [mark]) (ys := qs)
    h2.elems h3 hll (by simp [he]) (by simpa using ha)
  have hpm : pairs s (ps ++ [mark]) = xs ++ [(mark, v)] := by
    rw [pairs_append, hp]; simp [pairs, hv]
  have hzl : zs.length = vs.length := by rw [← hz, List.length_map]
  refine ⟨m', zs, .of_exec fun _ => by simp only [exec, e]; rfl, ?_, ?_, ?_, ?_⟩
  · rw [hzl, hvl, he, hlp, hlq]; simp; omega
  · intro i hi
    have hvq : (valsOf s.val qs).length = qs.length := valsOf_length hQ
    have := hper (i + qs.length) (by rw [List.length_append, hvq]; omega)
    rw [List.reverse_append, List.getElem?_append_right (by rw [List.length_reverse, hvq]; omega),
      List.length_reverse, hvq, Nat.add_sub_cancel, Nat.add_mod_right, ← hz, ← pairs_snd, hq] at this
    rw [hlq, ← List.getElem?_map, ← List.getElem?_map, List.map_reverse, List.map_reverse]
    exact this
  · have : Shows m' l (pairs s (ps ++ [mark]) ++ (zs ++ pairs s qs)) := hz'
    rw [hpm, hq] at this
    simpa using this
  · intro l' hl' hne us hus
    rw [h2.shows_eq (srun_lists h1 hl') hus]; exact ho' l' (srun_lists h1 hl') hne

/-- `PushBackListTo(l, mark)` on `l` itself, `xs` in front of `mark` and `ys` behind: copied are `xs`,
`mark`, and then, instead of `ys`, as many values as `ys` has of the copies just made: that of `mark`,
those of `xs` backwards, and so on. -/
theorem C136_pushBackListTo {c : Client T} (hc : Safe c) {rs : List (Res T)}
    (h : MRun c rs m) {l mark : Nat} (hl : Res.list l ∈ rs) {xs ys : List (Nat × T)} {v : T}
    (hx : Shows m l (xs ++ (mark, v) :: ys)) :
    ∃ m' zs, MStep m (.pushBackListTo l l mark) .unit m' ∧
      zs.map (·.2) = (xs.map (·.2) ++ [v] ++
        (v :: (xs.map (·.2)).reverse ++ ys.map (·.2)).take ys.length).reverse ∧
      Shows m' l (xs ++ (mark, v) :: (zs ++ ys)) ∧
      ∀ l', Res.list l' ∈ rs → l' ≠ l → ∀ us, Shows m l' us → Shows m' l' us := by
  obtain ⟨s, S, h1, h2⟩ := run_sim hc h
  have hll := srun_lists h1 hl
  obtain ⟨ps, qs, he, hp, hq, hv⟩ := split_pairs (h2.elems l) (h2.shows_eq hll hx).symm
  have hQ : ∀ n ∈ qs, s.val n ≠ none := fun n hn => h2.elems l n (by rw [he]; simp [hn])
  have hlq : ys.length = qs.length := by
    rw [← hq, ← valsOf_length hQ, ← pairs_snd, List.length_map]
  obtain ⟨m', s', S', ns, e, ha, h3⟩ := h2.pushBackListTo_self he hv
  obtain ⟨⟨zs, hz, hz'⟩, ho'⟩ := shows_alloc (xs := ps ++ [mark]) (ys := qs)
    h2.elems h3 hll (by simp [he]) (by simpa using ha)
  have hpm : pairs s (ps ++ [mark]) = xs ++ [(mark, v)] := by
    rw [pairs_append, hp]; simp [pairs, hv]
  refine ⟨m', zs, .of_exec fun _ => by simp only [exec, e]; rfl, ?_, ?_, ?_⟩
  · rw [hz, ← pairs_snd, ← pairs_snd, hp, hq, hlq]; simp
  · have : Shows m' l (pairs s (ps ++ [mark]) ++ (zs ++ pairs s qs)) := hz'
    rw [hpm, hq] at this
    simpa using this
  · intro l' hl' hne us hus
    rw [h2.shows_eq (srun_lists h1 hl') hus]; exact ho' l' (srun_lists h1 hl') hne

/-- `mark` is the value 3 of 1, 2, 3, 4, 5: the copies of 4, 5 over and over, where 1, 2, 3, 4, 5
should be. -/
example : script [.new, .pushBack 0 1, .pushBack 0 2, .pushBack 0 3, .pushBack 0 4, .pushBack 0 5,
    .pushFrontListTo 0 0 2] (.slice 0) = some (.vals [1, 2, 3, 5, 4, 5, 4, 5, 4, 5]) := rfl
/-- `mark` is the last element: right. -/
example : script [.new, .pushBack 0 1, .pushBack 0 2, .pushBack 0 3, .pushFrontListTo 0 0 2]
    (.slice 0) = some (.vals [1, 2, 3, 1, 2, 3]) := rfl
/-- 1, 2, 3, then 3, 2 for 4, 5; reversed. -/
example : script [.new, .pushBack 0 1, .pushBack 0 2, .pushBack 0 3, .pushBack 0 4, .pushBack 0 5,
    .pushBackListTo 0 0 2] (.slice 0) = some (.vals [1, 2, 3, 2, 3, 3, 2, 1, 4, 5]) := rfl

end Verif.Dllist
