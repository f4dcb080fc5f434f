import Verif.Dllist.Step
/-!
# Simulation of `Get`, iteration, and the list-copying calls
-/
namespace Verif.Dllist
open Spec (Op Res St Client SRun Safe valsOf insBefore insAfter nextOf prevOf exchange)
variable {T : Type} {m : Mem T} {s : St T} {S : Nat → List Nat}

/-! ## `Get` -/

theorem walkNext_rep (h : Rep m S) {l : Nat} (hi : m.inited l = true) :
    ∀ (k : Nat) (xs ys : List Nat), S l = xs ++ ys → k ≤ ys.length →
      walkNext m k (some (headP l ys)) = some (some (headP l (ys.drop k))) := by
  intro k
  induction k with
  | zero => intro xs ys _ _; simp [walkNext]
  | succ k ih =>
    intro xs ys hS hk
    cases ys with
    | nil => simp at hk
    | cons a ys =>
      simp only [walkNext, headP_cons, Option.bind_eq_bind, Option.bind_some]
      obtain ⟨h3, _⟩ := h.links hi (xs := xs ++ [a]) (ys := ys) (by rw [hS]; simp)
      rw [lastP_concat] at h3
      rw [h3, ih (xs ++ [a]) ys (by rw [hS]; simp) (by simpa using hk)]
      simp

theorem walkPrev_rep (h : Rep m S) {l : Nat} (hi : m.inited l = true) :
    ∀ (k : Nat) (xs ys : List Nat), S l = xs ++ ys → k ≤ xs.length →
      walkPrev m k (some (headP l ys)) =
        some (some (headP l (xs.drop (xs.length - k) ++ ys))) := by
  intro k
  induction k with
  | zero => intro xs ys _ _; simp [walkPrev]
  | succ k ih =>
    intro xs ys hS hk
    rcases eq_nil_or_snoc xs with rfl | ⟨t, a, rfl⟩
    · simp at hk
    · simp only [walkPrev, Option.bind_eq_bind, Option.bind_some]
      obtain ⟨_, h3⟩ := h.links hi (xs := t ++ [a]) (ys := ys) hS
      rw [lastP_concat] at h3
      have h4 := ih t (a :: ys) (by rw [hS]; simp) (by simp at hk; omega)
      rw [headP_cons] at h4
      rw [h3, h4]
      simp only [List.length_append, List.length_cons, List.length_nil]
      have : t.length + 1 - (k + 1) = t.length - k := by omega
      rw [Nat.zero_add, this, List.drop_append_of_le_length (by omega)]
      simp

theorem Sim.get (h : Sim m s S) {l : Nat} (hl : s.lists l) (i : Int) :
    ∃ m', get m l i = some (m', (if 0 ≤ i then (s.seq l)[i.toNat]? else none).map .node) ∧
      Sim m' s S := by
  unfold Dllist.get
  rw [h.rep.len, h.seq l hl]
  split
  · next hc =>
    refine ⟨m, ?_, h⟩
    split
    · next hi =>
      have : (s.seq l).length ≤ i.toNat := by omega
      rw [List.getElem?_eq_none this]; rfl
    · rfl
  · next hc =>
    rw [not_or] at hc
    obtain ⟨h1, h2, _⟩ := h.lazyInit hl
    have hpos : 0 ≤ i := by omega
    have hlt : i.toNat < (s.seq l).length := by omega
    have hS : S l = [] ++ s.seq l := by rw [h.seq l hl]; rfl
    obtain ⟨h3, _⟩ := h1.rep.links h2 hS
    rw [lastP_nil] at h3
    have hhead : headP l ((s.seq l).drop i.toNat) = .node ((s.seq l)[i.toNat]) := by
      rw [List.drop_eq_getElem_cons hlt]; rfl
    have hlen : (Dllist.lazyInit m l).len l = (s.seq l).length := by
      rw [h1.rep.len, h.seq l hl]
    rw [if_pos hpos, List.getElem?_eq_getElem hlt]
    dsimp only
    split
    · refine ⟨_, ?_, h1⟩
      rw [h3, walkNext_rep h1.rep h2 i.toNat [] _ hS (Nat.le_of_lt hlt), hhead]
      rfl
    · refine ⟨_, ?_, h1⟩
      have hk : ((Dllist.lazyInit m l).len l - i).toNat = (s.seq l).length - i.toNat := by
        rw [hlen]; omega
      have := walkPrev_rep h1.rep h2 ((s.seq l).length - i.toNat) (s.seq l) []
        (by rw [h.seq l hl]; simp) (by omega)
      rw [headP_nil] at this
      rw [hk, this, List.append_nil]
      have h5 : (s.seq l).length - ((s.seq l).length - i.toNat) = i.toNat := by omega
      rw [h5, hhead]
      rfl

/-! ## Iteration -/

/-- Induction principle for `Range` loops whose callback never stops the iteration. -/
theorem rangeLoop_ind {A : Type} {body : Mem T → A → Ptr → Option (Mem T × A × Bool)}
    (I : List Nat → Mem T → A → Prop) (full : List Nat)
    (hstep : ∀ done e rest m a, full = done ++ e :: rest → I done m a →
      ∃ m' a', body m a (.node e) = some (m', a', true) ∧ I (done ++ [e]) m' a' ∧
        elNext m' (.node e) = rest.head?.map .node) :
    ∀ rest done m a, full = done ++ rest → I done m a →
      ∃ m' a', (∀ fuel, rest.length < fuel →
          rangeLoop body fuel m a (rest.head?.map .node) = some (m', a', true)) ∧
        I full m' a' := by
  intro rest
  induction rest with
  | nil =>
    intro done m a hf hI
    refine ⟨m, a, ?_, ?_⟩
    · intro fuel hlt
      cases fuel with
      | zero => simp at hlt
      | succ k => simp [rangeLoop]
    · rw [hf, List.append_nil]; exact hI
  | cons e rest ih =>
    intro done m a hf hI
    obtain ⟨m1, a1, hb, hI1, hn⟩ := hstep done e rest m a hf hI
    obtain ⟨m2, a2, hr, hI2⟩ := ih (done ++ [e]) m1 a1 (by rw [hf]; simp) hI1
    refine ⟨m2, a2, ?_, hI2⟩
    intro fuel hlt
    cases fuel with
    | zero => simp at hlt
    | succ k =>
      simp only [List.head?_cons, Option.map_some, rangeLoop, hb, Option.bind_eq_bind,
        Option.bind_some, if_true, hn]
      exact hr k (by simp at hlt; omega)

theorem Sim.slice (h : Sim m s S) {l : Nat} (hl : s.lists l) :
    ∃ m', (∀ fuel, (s.seq l).length < fuel →
      slice fuel m l = some (m', valsOf s.val (s.seq l))) ∧ Sim m' s S := by
  obtain ⟨m1, e1, h1, _⟩ := h.front hl
  obtain ⟨m', a', hr, hm, ha⟩ := rangeLoop_ind
    (body := fun m (s : List T) e => do
      let v ← Dllist.value m e
      some (m, s ++ [v], true))
    (fun done m a => Sim m s S ∧ a = valsOf s.val done) (s.seq l)
    (by
      rintro done e rest m2 a hfull ⟨hsim, rfl⟩
      obtain ⟨v, hv, hmv⟩ := hsim.value (l := l) (n := e) (by rw [hfull]; simp)
      refine ⟨m2, valsOf s.val done ++ [v], by simp [Dllist.value, hmv], ⟨hsim, ?_⟩,
        hsim.elNext hfull⟩
      simp [valsOf, hv])
    (s.seq l) [] m1 [] rfl ⟨h1, rfl⟩
  refine ⟨m', fun fuel hf => ?_, hm⟩
  unfold Dllist.slice Dllist.range
  rw [e1]
  dsimp only
  rw [hr fuel hf, ha]
  rfl

/-! ## Repeated insertion -/

theorem valsOf_append (f : Nat → Option T) (xs ys : List Nat) :
    valsOf f (xs ++ ys) = valsOf f xs ++ valsOf f ys := by simp [valsOf]

theorem valsOf_congr {f g : Nat → Option T} {xs : List Nat} (h : ∀ n ∈ xs, f n = g n) :
    valsOf f xs = valsOf g xs := by
  unfold valsOf
  induction xs with
  | nil => rfl
  | cons a l ih => simp only [List.filterMap_cons, h a (by simp), ih fun n hn => h n (by simp [hn])]

theorem Spec.St.Alloc.refl (s : St T) (l : Nat) : s.Alloc [] [] l (s.seq l) s := by
  refine ⟨⟨by simp, by simp⟩, rfl, rfl, ?_, rfl, by simp, fun _ _ => rfl⟩
  rw [set_eq_upd, upd_self]

/-- Values of handles that existed before are unchanged by an allocation. -/
theorem Spec.St.Alloc.old {s s' : St T} {ns vs l xs} (h : s.Alloc ns vs l xs s') {n : Nat}
    (hn : s.val n ≠ none) : s'.val n = s.val n :=
  h.2.2.2.2.2.2 n fun hc => hn (h.1.2 n hc)

theorem Spec.St.Alloc.seq_self {s s' : St T} {ns vs l xs} (h : s.Alloc ns vs l xs s') :
    s'.seq l = xs := by rw [h.2.2.2.1]; simp [Spec.set]

theorem Spec.St.Alloc.seq_other {s s' : St T} {ns vs l xs} (h : s.Alloc ns vs l xs s') {l' : Nat}
    (hl : l' ≠ l) : s'.seq l' = s.seq l' := by rw [h.2.2.2.1]; simp [Spec.set, hl]

/-- One more allocation; the handles can be listed in either order. -/
theorem Spec.St.Alloc.trans {s s1 s2 : St T} {ns ns' vs vs' l xs xs'} (h1 : s.Alloc ns vs l xs s1)
    (h2 : s1.Alloc ns' vs' l xs' s2) :
    s.Alloc (ns ++ ns') (vs ++ vs') l xs' s2 ∧ s.Alloc (ns' ++ ns) (vs' ++ vs) l xs' s2 := by
  have hdisj : ∀ n ∈ ns, n ∉ ns' := by
    intro n hn hn'
    have := h1.2.2.2.2.2.1 n hn
    rw [h2.1.2 n hn'] at this; simp at this
  have hnew' : ∀ n ∈ ns', s.val n = none := by
    intro n hn
    rw [← h1.2.2.2.2.2.2 n (fun hc => hdisj n hc hn)]
    exact h2.1.2 n hn
  have hv1 : valsOf s2.val ns = vs := by
    rw [← h1.2.2.2.2.1]
    exact valsOf_congr fun n hn => h2.2.2.2.2.2.2 n (hdisj n hn)
  have hsome : ∀ n ∈ ns, (s2.val n).isSome := by
    intro n hn; rw [h2.2.2.2.2.2.2 n (hdisj n hn)]; exact h1.2.2.2.2.2.1 n hn
  have hseq : s2.seq = Spec.set s.seq l xs' := by
    rw [h2.2.2.2.1, h1.2.2.2.1]; funext x; simp only [Spec.set]; split <;> rfl
  refine ⟨⟨⟨?_, ?_⟩, h2.2.1.trans h1.2.1, h2.2.2.1.trans h1.2.2.1, hseq, ?_, ?_, ?_⟩,
    ⟨⟨?_, ?_⟩, h2.2.1.trans h1.2.1, h2.2.2.1.trans h1.2.2.1, hseq, ?_, ?_, ?_⟩⟩
  · rw [List.nodup_append]
    exact ⟨h1.1.1, h2.1.1, fun a ha b hb e => hdisj a ha (e ▸ hb)⟩
  · intro n hn; rcases List.mem_append.1 hn with hn | hn
    · exact h1.1.2 n hn
    · exact hnew' n hn
  · rw [valsOf_append, hv1, h2.2.2.2.2.1]
  · intro n hn; rcases List.mem_append.1 hn with hn | hn
    · exact hsome n hn
    · exact h2.2.2.2.2.2.1 n hn
  · intro n hn; rw [List.mem_append, not_or] at hn
    rw [h2.2.2.2.2.2.2 n hn.2, h1.2.2.2.2.2.2 n hn.1]
  · rw [List.nodup_append]
    exact ⟨h2.1.1, h1.1.1, fun a ha b hb e => hdisj b hb (e ▸ ha)⟩
  · intro n hn; rcases List.mem_append.1 hn with hn | hn
    · exact hnew' n hn
    · exact h1.1.2 n hn
  · rw [valsOf_append, hv1, h2.2.2.2.2.1]
  · intro n hn; rcases List.mem_append.1 hn with hn | hn
    · exact h2.2.2.2.2.2.1 n hn
    · exact hsome n hn
  · intro n hn; rw [List.mem_append, not_or] at hn
    rw [h2.2.2.2.2.2.2 n hn.1, h1.2.2.2.2.2.2 n hn.2]

/-- `PushBackList`: `s` is the state at the start, `s1` the current one; `done` of `other`'s
elements have been copied to the new elements `ns`. -/
theorem pushBackListLoop_sim {l o : Nat} {s0 : St T} {L : List Nat} (hs0 : s0.seq o = L)
    (hl : s0.lists l) (ho : ∀ n ∈ L, s0.val n ≠ none) :
    ∀ (rest done ns : List Nat) (m1 : Mem T) (s1 : St T) S1, L = done ++ rest →
      s0.Alloc ns (valsOf s0.val done) l (s0.seq l ++ ns) s1 → Sim m1 s1 S1 →
      m1.inited l = true →
      ∃ ns' m2 s2 S2, pushBackListLoop l rest.length m1 (rest.head?.map .node) = some m2 ∧
        s0.Alloc ns' (valsOf s0.val L) l (s0.seq l ++ ns') s2 ∧ Sim m2 s2 S2 := by
  intro rest
  induction rest with
  | nil =>
    intro done ns m1 s1 S1 hL ha hsim _
    refine ⟨ns, m1, s1, S1, rfl, ?_, hsim⟩
    rw [hL, List.append_nil]; exact ha
  | cons e rest ih =>
    intro done ns m1 s1 S1 hL ha hsim hi
    have he : e ∈ L := by rw [hL]; simp
    obtain ⟨v, hv⟩ := Option.ne_none_iff_exists'.1 (ho e he)
    have hv1 : s1.val e = some v := by rw [ha.old (ho e he), hv]
    have hl1 : s1.lists l := by rw [ha.2.1]; exact hl
    obtain ⟨m2, s2, S2, e2, ha2, hsim2, hin⟩ := hsim.insertValue hl1 hi (xs := s1.seq l) (ys := [])
      (by simp) v
    rw [ha.seq_self] at ha2
    have ha' := (ha.trans ha2).1
    have hd : valsOf s0.val done ++ [v] = valsOf s0.val (done ++ [e]) := by
      simp [valsOf, hv]
    rw [hd, List.append_assoc] at ha'
    obtain ⟨_, h5⟩ := hsim.rep.links hi (xs := s1.seq l) (ys := []) (by rw [hsim.seq l hl1]; simp)
    rw [headP_nil] at h5
    -- the element after `e` in `other` now
    have hnext : elNext m2 (.node e) = rest.head?.map .node ∨ rest = [] := by
      by_cases hlo : l = o
      · subst hlo
        cases rest with
        | nil => exact Or.inr rfl
        | cons f rest =>
          refine Or.inl ?_
          have hseq : s2.seq l = done ++ e :: (f :: rest ++ (ns ++ [m1.fresh])) := by
            rw [ha'.seq_self, hs0, hL]; simp
          rw [hsim2.elNext hseq]; simp
      · have hseq : s2.seq o = done ++ e :: rest := by
          rw [ha'.seq_other (Ne.symm hlo), hs0, hL]
        exact Or.inl (hsim2.elNext hseq)
    obtain ⟨ns', m3, s3, S3, e3, ha3, hsim3⟩ := ih (done ++ [e]) _ m2 s2 S2 (by rw [hL]; simp)
      ha' hsim2 (hin l hi)
    refine ⟨ns', m3, s3, S3, ?_, ha3, hsim3⟩
    simp only [List.length_cons, List.head?_cons, Option.map_some, pushBackListLoop,
      Option.bind_eq_bind, Option.bind_some, Dllist.value, hsim.val e v hv1, h5, e2]
    rcases hnext with h6 | h6
    · rw [h6]; exact e3
    · subst h6; simpa [pushBackListLoop] using e3

theorem Sim.pushBackList (h : Sim m s S) {l o : Nat} (hl : s.lists l) (ho : s.lists o) :
    ∃ m' s' S', pushBackList m l o = some m' ∧ s.Step (.pushBackList l o) .unit s' ∧
      Sim m' s' S' := by
  obtain ⟨h1, h2, h3⟩ := h.lazyInit hl
  obtain ⟨m2, e2, hs2, hin⟩ := h1.front ho
  have hlen : ((Dllist.lazyInit m l).len o).toNat = (s.seq o).length := by
    rw [h1.rep.len, h.seq o ho]; simp
  obtain ⟨ns, m3, s3, S3, e3, ha, hsim⟩ := pushBackListLoop_sim (o := o) rfl hl
    (fun n hn => h.elems o n hn) (s.seq o) [] [] m2 s S rfl
    (by simpa [valsOf] using St.Alloc.refl s l) hs2 (hin l h2)
  refine ⟨m3, s3, S3, ?_, ⟨rfl, ns, ha⟩, hsim⟩
  simp only [Dllist.pushBackList, e2, hlen]; exact e3

/-- `PushFrontList`: walks `other` backwards, prepending. -/
theorem pushFrontListLoop_sim {l o : Nat} {s0 : St T} {L : List Nat} (hs0 : s0.seq o = L)
    (hl : s0.lists l) (ho : ∀ n ∈ L, s0.val n ≠ none) :
    ∀ (n : Nat) (rest done ns : List Nat) (m1 : Mem T) (s1 : St T) S1, rest.length = n →
      L = rest ++ done →
      s0.Alloc ns (valsOf s0.val done) l (ns ++ s0.seq l) s1 → Sim m1 s1 S1 →
      m1.inited l = true →
      ∃ ns' m2 s2 S2, pushFrontListLoop l n m1 (rest.getLast?.map .node) = some m2 ∧
        s0.Alloc ns' (valsOf s0.val L) l (ns' ++ s0.seq l) s2 ∧ Sim m2 s2 S2 := by
  intro n
  induction n with
  | zero =>
    intro rest done ns m1 s1 S1 hr hL ha hsim _
    have : rest = [] := List.eq_nil_of_length_eq_zero hr
    subst this
    refine ⟨ns, m1, s1, S1, rfl, ?_, hsim⟩
    rw [hL, List.nil_append]; exact ha
  | succ k ih =>
    intro rest done ns m1 s1 S1 hr hL ha hsim hi
    rcases eq_nil_or_snoc rest with rfl | ⟨t, e, rfl⟩
    · simp at hr
    have he : e ∈ L := by rw [hL]; simp
    obtain ⟨v, hv⟩ := Option.ne_none_iff_exists'.1 (ho e he)
    have hv1 : s1.val e = some v := by rw [ha.old (ho e he), hv]
    have hl1 : s1.lists l := by rw [ha.2.1]; exact hl
    obtain ⟨m2, s2, S2, e2, ha2, hsim2, hin⟩ := hsim.insertValue hl1 hi (xs := []) (ys := s1.seq l)
      rfl v
    rw [ha.seq_self] at ha2
    have ha' := (ha.trans ha2).2
    have hd : [v] ++ valsOf s0.val done = valsOf s0.val (e :: done) := by
      simp [valsOf, hv]
    rw [hd] at ha'
    have hprev : elPrev m2 (.node e) = t.getLast?.map .node ∨ t = [] := by
      by_cases hlo : l = o
      · subst hlo
        rcases eq_nil_or_snoc t with rfl | ⟨t', f, rfl⟩
        · exact Or.inr rfl
        · refine Or.inl ?_
          have hseq : s2.seq l = (m1.fresh :: ns ++ t' ++ [f]) ++ e :: done := by
            rw [ha'.seq_self, hs0, hL]; simp
          rw [hsim2.elPrev hseq, List.getLast?_append, List.getLast?_append]; simp
      · have hseq : s2.seq o = t ++ e :: done := by
          rw [ha'.seq_other (Ne.symm hlo), hs0, hL]; simp
        exact Or.inl (hsim2.elPrev hseq)
    obtain ⟨ns', m3, s3, S3, e3, ha3, hsim3⟩ := ih t (e :: done) ([m1.fresh] ++ ns) m2 s2 S2
      (by simpa using hr) (by rw [hL]; simp) (by simpa using ha') hsim2 (hin l hi)
    refine ⟨ns', m3, s3, S3, ?_, ha3, hsim3⟩
    rw [lastP_nil] at e2
    simp only [List.getLast?_append, List.getLast?_singleton, Option.or_some, Option.map_some,
      pushFrontListLoop,
      Option.bind_eq_bind, Option.bind_some, Dllist.value, hsim.val e v hv1, e2,
      Option.some_or]
    rcases hprev with h6 | h6
    · rw [h6]; exact e3
    · subst h6
      have : k = 0 := by simpa using hr.symm
      subst this; simpa [pushFrontListLoop] using e3

theorem Sim.pushFrontList (h : Sim m s S) {l o : Nat} (hl : s.lists l) (ho : s.lists o) :
    ∃ m' s' S', pushFrontList m l o = some m' ∧ s.Step (.pushFrontList l o) .unit s' ∧
      Sim m' s' S' := by
  obtain ⟨h1, h2, h3⟩ := h.lazyInit hl
  obtain ⟨m2, e2, hs2, hin⟩ := h1.back ho
  have hlen : ((Dllist.lazyInit m l).len o).toNat = (s.seq o).length := by
    rw [h1.rep.len, h.seq o ho]; simp
  obtain ⟨ns, m3, s3, S3, e3, ha, hsim⟩ := pushFrontListLoop_sim (o := o) rfl hl
    (fun n hn => h.elems o n hn) _ (s.seq o) [] [] m2 s S rfl (by simp)
    (by simpa [valsOf] using St.Alloc.refl s l) hs2 (hin l h2)
  refine ⟨m3, s3, S3, ?_, ⟨rfl, ns, ha⟩, hsim⟩
  simp only [Dllist.pushFrontList, e2, hlen]; exact e3

/-- `PushBackListTo`: copies `other` forwards, each directly after `mark` (so in reverse). -/
theorem pushBackListToLoop_sim {l o mark : Nat} {s0 : St T} {L P Q : List Nat}
    (hs0 : s0.seq o = L) (hlo : l ≠ o) (hP : mark ∉ P)
    (hsl : s0.seq l = P ++ mark :: Q) (ho : ∀ n ∈ L, s0.val n ≠ none) :
    ∀ (rest done ns : List Nat) (m1 : Mem T) (s1 : St T) S1, L = done ++ rest →
      s0.Alloc ns (valsOf s0.val done).reverse l (P ++ mark :: (ns ++ Q)) s1 → Sim m1 s1 S1 →
      ∃ ns' m2 s2 S2, pushBackListToLoop l mark rest.length m1 (rest.head?.map .node) = some m2 ∧
        s0.Alloc ns' (valsOf s0.val L).reverse l (P ++ mark :: (ns' ++ Q)) s2 ∧ Sim m2 s2 S2 := by
  intro rest
  induction rest with
  | nil =>
    intro done ns m1 s1 S1 hL ha hsim
    refine ⟨ns, m1, s1, S1, rfl, ?_, hsim⟩
    rw [hL, List.append_nil]; exact ha
  | cons e rest ih =>
    intro done ns m1 s1 S1 hL ha hsim
    have he : e ∈ L := by rw [hL]; simp
    obtain ⟨v, hv⟩ := Option.ne_none_iff_exists'.1 (ho e he)
    have hv1 : s1.val e = some v := by rw [ha.old (ho e he), hv]
    have hmk : mark ∈ s1.seq l := by rw [ha.seq_self]; simp
    obtain ⟨m2, s2, S2, e2, ha2, hsim2, _⟩ := (hsim.insertAt hmk v).1
    rw [ha.seq_self, insAfter_eq hP] at ha2
    have ha' := (ha.trans ha2).2
    have hd : [v] ++ (valsOf s0.val done).reverse = (valsOf s0.val (done ++ [e])).reverse := by
      simp [valsOf, hv]
    rw [hd] at ha'
    have hnext : elNext m2 (.node e) = rest.head?.map .node := by
      have hseq : s2.seq o = done ++ e :: rest := by
        rw [ha'.seq_other (Ne.symm hlo), hs0, hL]
      exact hsim2.elNext hseq
    obtain ⟨ns', m3, s3, S3, e3, ha3, hsim3⟩ := ih (done ++ [e]) ([m1.fresh] ++ ns) m2 s2 S2
      (by rw [hL]; simp) (by simpa using ha') hsim2
    refine ⟨ns', m3, s3, S3, ?_, ha3, hsim3⟩
    simp only [List.length_cons, List.head?_cons, Option.map_some, pushBackListToLoop,
      Option.bind_eq_bind, Option.bind_some, Dllist.value, hsim.val e v hv1, e2, hnext]
    exact e3

theorem Sim.pushBackListTo (h : Sim m s S) {l o mark : Nat} (hl : s.lists l) (ho : s.lists o)
    (hlo : l ≠ o) (hk : s.Usable mark) :
    ∃ m' s' S', pushBackListTo m l o mark = some m' ∧
      s.Step (.pushBackListTo l o mark) .unit s' ∧ Sim m' s' S' := by
  unfold Dllist.pushBackListTo
  by_cases hm : mark ∈ s.seq l
  · rw [if_neg (by simpa using (h.owner_iff hk hl).2 hm)]
    obtain ⟨P, Q, hpq, hP, _, _⟩ := split_nodup (h.nodup l) hm
    obtain ⟨m2, e2, hs2, hin⟩ := h.front ho
    have hlen : (m.len o).toNat = (s.seq o).length := by
      rw [h.rep.len, h.seq o ho]; simp
    obtain ⟨ns, m3, s3, S3, e3, ha, hsim⟩ := pushBackListToLoop_sim (o := o) rfl hlo hP hpq
      (fun n hn => h.elems o n hn) (s.seq o) [] [] m2 s S rfl
      (by have := St.Alloc.refl s l; rw [hpq] at this; simpa [valsOf] using this) hs2
    refine ⟨m3, s3, S3, ?_, ⟨rfl, ?_⟩, hsim⟩
    · simp only [e2, hlen]; exact e3
    · rw [if_pos hm]; exact ⟨ns, by rw [hpq, insAfter_eq hP]; exact ha⟩
  · rw [if_pos (by rw [ne_eq, h.owner_iff hk hl]; exact hm)]
    exact ⟨m, s, S, rfl, ⟨rfl, by rw [if_neg hm]⟩, h⟩

/-- `PushFrontListTo`: copies `other` backwards, each directly after `mark` (so in order). -/
theorem pushFrontListToLoop_sim {l o mark : Nat} {s0 : St T} {L P Q : List Nat}
    (hs0 : s0.seq o = L) (hlo : l ≠ o) (hP : mark ∉ P)
    (hsl : s0.seq l = P ++ mark :: Q) (ho : ∀ n ∈ L, s0.val n ≠ none) :
    ∀ (k : Nat) (rest done ns : List Nat) (m1 : Mem T) (s1 : St T) S1, rest.length = k →
      L = rest ++ done →
      s0.Alloc ns (valsOf s0.val done) l (P ++ mark :: (ns ++ Q)) s1 → Sim m1 s1 S1 →
      ∃ ns' m2 s2 S2, pushFrontListToLoop l mark k m1 (rest.getLast?.map .node) = some m2 ∧
        s0.Alloc ns' (valsOf s0.val L) l (P ++ mark :: (ns' ++ Q)) s2 ∧ Sim m2 s2 S2 := by
  intro k
  induction k with
  | zero =>
    intro rest done ns m1 s1 S1 hr hL ha hsim
    have : rest = [] := List.eq_nil_of_length_eq_zero hr
    subst this
    refine ⟨ns, m1, s1, S1, rfl, ?_, hsim⟩
    rw [hL, List.nil_append]; exact ha
  | succ k ih =>
    intro rest done ns m1 s1 S1 hr hL ha hsim
    rcases eq_nil_or_snoc rest with rfl | ⟨t, e, rfl⟩
    · simp at hr
    have he : e ∈ L := by rw [hL]; simp
    obtain ⟨v, hv⟩ := Option.ne_none_iff_exists'.1 (ho e he)
    have hv1 : s1.val e = some v := by rw [ha.old (ho e he), hv]
    have hmk : mark ∈ s1.seq l := by rw [ha.seq_self]; simp
    obtain ⟨m2, s2, S2, e2, ha2, hsim2, _⟩ := (hsim.insertAt hmk v).1
    rw [ha.seq_self, insAfter_eq hP] at ha2
    have ha' := (ha.trans ha2).2
    have hd : [v] ++ valsOf s0.val done = valsOf s0.val (e :: done) := by
      simp [valsOf, hv]
    rw [hd] at ha'
    have hprev : elPrev m2 (.node e) = t.getLast?.map .node := by
      have hseq : s2.seq o = t ++ e :: done := by
        rw [ha'.seq_other (Ne.symm hlo), hs0, hL]; simp
      exact hsim2.elPrev hseq
    obtain ⟨ns', m3, s3, S3, e3, ha3, hsim3⟩ := ih t (e :: done) ([m1.fresh] ++ ns) m2 s2 S2
      (by simpa using hr) (by rw [hL]; simp) (by simpa using ha') hsim2
    refine ⟨ns', m3, s3, S3, ?_, ha3, hsim3⟩
    simp only [List.getLast?_append, List.getLast?_singleton, Option.map_some,
      pushFrontListToLoop,
      Option.bind_eq_bind, Option.bind_some, Dllist.value, hsim.val e v hv1, e2,
      Option.some_or, hprev]
    exact e3

theorem Sim.pushFrontListTo (h : Sim m s S) {l o mark : Nat} (hl : s.lists l) (ho : s.lists o)
    (hlo : l ≠ o) (hk : s.Usable mark) :
    ∃ m' s' S', pushFrontListTo m l o mark = some m' ∧
      s.Step (.pushFrontListTo l o mark) .unit s' ∧ Sim m' s' S' := by
  unfold Dllist.pushFrontListTo
  by_cases hm : mark ∈ s.seq l
  · rw [if_neg (by simpa using (h.owner_iff hk hl).2 hm)]
    obtain ⟨P, Q, hpq, hP, _, _⟩ := split_nodup (h.nodup l) hm
    obtain ⟨m2, e2, hs2, hin⟩ := h.back ho
    have hlen : (m.len o).toNat = (s.seq o).length := by
      rw [h.rep.len, h.seq o ho]; simp
    obtain ⟨ns, m3, s3, S3, e3, ha, hsim⟩ := pushFrontListToLoop_sim (o := o) rfl hlo hP hpq
      (fun n hn => h.elems o n hn) _ (s.seq o) [] [] m2 s S rfl (by simp)
      (by have := St.Alloc.refl s l; rw [hpq] at this; simpa [valsOf] using this) hs2
    refine ⟨m3, s3, S3, ?_, ⟨rfl, ?_⟩, hsim⟩
    · simp only [e2, hlen]; exact e3
    · rw [if_pos hm]; exact ⟨ns, by rw [hpq, insAfter_eq hP]; exact ha⟩
  · rw [if_pos (by rw [ne_eq, h.owner_iff hk hl]; exact hm)]
    exact ⟨m, s, S, rfl, ⟨rfl, by rw [if_neg hm]⟩, h⟩

end Verif.Dllist
