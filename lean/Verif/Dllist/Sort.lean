import Verif.Dllist.Step2
/-!
# Simulation of `Sort`
-/
namespace Verif.Dllist
open Spec (Op Res St Client SRun Safe valsOf StableSorted)
variable {T : Type} {m : Mem T} {s : St T} {S : Nat → List Nat}

/-! ## Quicksort facts on plain lists -/

theorem sorted_join {less : T → T → Bool} (hw : StrictWeak less) {p : T} {R A B : List T}
    (hA : StableSorted less (R.filter (fun v => less v p)) A)
    (pA : A.Perm (R.filter (fun v => less v p)))
    (hB : StableSorted less (R.filter (fun v => !less v p)) B)
    (pB : B.Perm (R.filter (fun v => !less v p))) :
    StableSorted less (p :: R) (A ++ p :: B) := by
  have mA : ∀ a ∈ A, less a p = true := fun a ha => by
    have := pA.mem_iff.1 ha; simp at this; exact this.2
  have mB : ∀ b ∈ B, less b p = false := fun b hb => by
    have := pB.mem_iff.1 hb; simp at this; exact this.2
  constructor
  · rw [List.pairwise_append]
    refine ⟨hA.1, List.pairwise_cons.2 ⟨mB, hB.1⟩, ?_⟩
    intro a ha b hb
    rcases List.mem_cons.1 hb with rfl | hb
    · cases h : less b a with
      | false => rfl
      | true => have := hw.trans _ _ _ h (mA a ha); rw [hw.irrefl] at this; exact this.symm
    · cases h : less b a with
      | false => rfl
      | true => have := hw.trans _ _ _ h (mA a ha); rw [mB b hb] at this; exact this.symm
  · intro v
    have e : ∀ w, (!less v w && !less w v) = true ↔ less v w = false ∧ less w v = false := by
      intro w; simp
    rw [List.filter_append, List.filter_cons, List.filter_cons, hA.2 v, hB.2 v,
      List.filter_filter, List.filter_filter]
    by_cases hp : (!less v p && !less p v) = true
    · obtain ⟨h1, h2⟩ := (e p).1 hp
      rw [if_pos hp, if_pos hp]
      have z : R.filter (fun a => (!less v a && !less a v) && less a p) = [] := by
        rw [List.filter_eq_nil_iff]
        intro w _ hc
        simp at hc
        have := hw.negTrans w v p hc.1.2 h1
        rw [this] at hc; simp at hc
      rw [z, List.nil_append]
      congr 1
      refine List.filter_congr fun w _ => ?_
      cases hc : (!less v w && !less w v) with
      | false => simp
      | true =>
        obtain ⟨h3, h4⟩ := (e w).1 hc
        simp [hw.negTrans w v p h4 h1]
    · rw [if_neg hp, if_neg hp]
      have : less v p = true ∨ (less v p = false ∧ less p v = true) := by
        cases h : less v p <;> simp_all
      rcases this with h | ⟨h0, h⟩
      · have z : R.filter (fun a => (!less v a && !less a v) && !less a p) = [] := by
          rw [List.filter_eq_nil_iff]
          intro w _ hc
          simp at hc
          have := hw.negTrans v w p hc.1.1 hc.2
          rw [this] at h; simp at h
        rw [z, List.append_nil]
        refine List.filter_congr fun w _ => ?_
        cases hc : (!less v w && !less w v) with
        | false => simp
        | true =>
          obtain ⟨h3, h4⟩ := (e w).1 hc
          cases h5 : less w p with
          | true => simp
          | false => have := hw.negTrans v w p h3 h5; rw [this] at h; simp at h
      · have z : R.filter (fun a => (!less v a && !less a v) && less a p) = [] := by
          rw [List.filter_eq_nil_iff]
          intro w _ hc
          simp at hc
          have := hw.trans w p v hc.2 h
          rw [this] at hc; simp at hc
        rw [z, List.nil_append]
        refine List.filter_congr fun w _ => ?_
        cases hc : (!less v w && !less w v) with
        | false => simp
        | true =>
          obtain ⟨h3, h4⟩ := (e w).1 hc
          cases h5 : less w p with
          | false => simp
          | true => have := hw.trans w p v h5 h; rw [this] at h4; simp at h4

theorem perm_join {less : T → T → Bool} {p : T} {R A B : List T}
    (pA : A.Perm (R.filter (fun v => less v p)))
    (pB : B.Perm (R.filter (fun v => !less v p))) : (A ++ p :: B).Perm (p :: R) := by
  refine List.perm_middle.trans (List.Perm.cons _ ?_)
  exact (List.Perm.append pA pB).trans (List.filter_append_perm _ _)

/-! ## Creating and hiding lists -/

theorem Sim.newAny (h : Sim m s S) {m' : Mem T} (hr : Rep m' S)
    (hf : m'.freshL = m.freshL + 1) (h1 : m'.val = m.val) (h2 : m'.fresh = m.fresh)
    (h3 : m'.owner = m.owner) :
    ¬ s.lists m.freshL ∧
    Sim m' { s with
      lists := fun x => x = m.freshL ∨ s.lists x, seq := Spec.set s.seq m.freshL [] } S := by
  have hn : ¬ s.lists m.freshL := fun hc => Nat.lt_irrefl _ (h.listAlloc _ hc)
  have hz : Spec.set s.seq m.freshL [] = s.seq := by
    rw [← h.noList _ hn, set_eq_upd, upd_self]
  refine ⟨hn, ?_⟩
  rw [hz]
  refine ⟨hr, ?_, ?_, by rw [h1]; exact h.val, by rw [h2]; exact h.alloc, h.elems, ?_, ?_⟩
  · rintro l (rfl | hl)
    · rw [h.noList _ hn]; exact h.rep.unallocList (Nat.le_refl _)
    · exact h.seq l hl
  · rintro l (rfl | hl)
    · omega
    · have := h.listAlloc l hl; omega
  · intro n l hn ho
    rw [h3] at ho
    rcases h.owner n l hn ho with ⟨h1, h2⟩ | h1
    · exact Or.inl ⟨Or.inr h1, h2⟩
    · exact Or.inr h1
  · intro l hl
    exact h.noList l fun hc => hl (Or.inr hc)

theorem Sim.new (h : Sim m s S) :
    (new m).2 = m.freshL ∧ ¬ s.lists m.freshL ∧
    Sim (new m).1 { s with
      lists := fun x => x = m.freshL ∨ s.lists x, seq := Spec.set s.seq m.freshL [] } S := by
  obtain ⟨h1, h2, h3, h4, h5⟩ := new_rep h.rep
  exact ⟨h2, h.newAny h1 h5 h4 h3 rfl⟩

theorem Sim.zeroList (h : Sim m s S) :
    (zeroList m).2 = m.freshL ∧ ¬ s.lists m.freshL ∧
    Sim (zeroList m).1 { s with
      lists := fun x => x = m.freshL ∨ s.lists x, seq := Spec.set s.seq m.freshL [] } S :=
  ⟨rfl, h.newAny (zeroList_rep h.rep).1 rfl rfl rfl rfl⟩

/-- Forgetting lists and elements the client has no handle on. -/
theorem Sim.hide (h : Sim m s S) {s' : St T} (h1 : ∀ l, s'.lists l → s.lists l ∧ s'.seq l = s.seq l)
    (h2 : ∀ l, ¬ s'.lists l → s'.seq l = []) (h3 : ∀ n v, s'.val n = some v → s.val n = some v)
    (h4 : ∀ l, ∀ n ∈ s'.seq l, s'.val n ≠ none)
    (h5 : ∀ n, s'.val n ≠ none → s.stale n → s'.stale n ∨ ∃ l, s'.lists l ∧ n ∈ s'.seq l)
    (h6 : ∀ l, s.lists l → ¬ s'.lists l → ∀ n ∈ s.seq l, s'.val n = none) : Sim m s' S := by
  have hv : ∀ n, s'.val n ≠ none → s.val n ≠ none := by
    intro n hn
    obtain ⟨v, hv⟩ := Option.ne_none_iff_exists'.1 hn
    rw [h3 n v hv]; simp
  refine ⟨h.rep, ?_, fun l hl => h.listAlloc l (h1 l hl).1, fun n v hn => h.val n v (h3 n v hn),
    fun n hn => h.alloc n (hv n hn), h4, ?_, h2⟩
  · intro l hl; rw [(h1 l hl).2]; exact h.seq l (h1 l hl).1
  · intro n l hn ho
    rcases h.owner n l (hv n hn) ho with ⟨h7, h8⟩ | h7
    · rcases Classical.em (s'.lists l) with hl | hl
      · exact Or.inl ⟨hl, by rw [(h1 l hl).2]; exact h8⟩
      · exact (hn (h6 l h7 hl n h8)).elim
    · rcases h5 n hn h7 with h8 | ⟨l', h8, h9⟩
      · exact Or.inr h8
      · have := h9
        rw [(h1 l' h8).2] at h9
        obtain rfl : l' = l := by
          have e := h.rep.owner l' n (h.memS h9)
          rw [ho] at e; injection e with e; exact e.symm
        exact Or.inl ⟨h8, this⟩

/-! ## The sort -/

/-- Bookkeeping during `Sort` of `l` started in `s0` with auxiliary lists `sm` and `lg`. -/
structure Fr (s0 : St T) (l sm lg : Nat) (s : St T) : Prop where
  lists : ∀ x, s.lists x ↔ x = sm ∨ x = lg ∨ s0.lists x
  other : ∀ x, x ≠ l → x ≠ sm → x ≠ lg → s.seq x = s0.seq x
  old : ∀ n, s0.val n ≠ none → s.val n = s0.val n
  newSm : ∀ n ∈ s.seq sm, s0.val n = none
  newLg : ∀ n ∈ s.seq lg, s0.val n = none
  stale : ∀ n, s0.val n ≠ none → s.stale n → s0.stale n ∨ n ∈ s0.seq l

theorem Fr.new_of {s0 s : St T} {l sm lg : Nat} (h : Fr s0 l sm lg s) {n : Nat}
    (hn : s.val n = none) : s0.val n = none := by
  rcases Classical.em (s0.val n = none) with h' | h'
  · exact h'
  · rw [h.old n h'] at hn; exact hn

theorem Fr.alloc {s0 s s' : St T} {l sm lg x : Nat} (h : Fr s0 l sm lg s)
    (hx : x = l ∨ x = sm ∨ x = lg) {ns vs} (ha : s.Alloc ns vs x (s.seq x ++ ns) s') :
    Fr s0 l sm lg s' := by
  have hnew : ∀ n ∈ ns, s0.val n = none := fun n hn => h.new_of (ha.1.2 n hn)
  have hseq : ∀ y, y = x ∧ s'.seq y = s.seq x ++ ns ∨ y ≠ x ∧ s'.seq y = s.seq y := by
    intro y
    by_cases e : y = x
    · exact Or.inl ⟨e, by rw [e]; exact ha.seq_self⟩
    · exact Or.inr ⟨e, ha.seq_other e⟩
  refine ⟨by rw [ha.2.1]; exact h.lists, ?_, ?_, ?_, ?_, by rw [ha.2.2.1]; exact h.stale⟩
  · intro y h1 h2 h3
    rcases hseq y with ⟨e, _⟩ | ⟨_, e⟩
    · subst e; rcases hx with e | e | e <;> contradiction
    · rw [e]; exact h.other y h1 h2 h3
  · intro n hn
    rw [ha.old (by rw [h.old n hn]; exact hn), h.old n hn]
  · intro n hn
    rcases hseq sm with ⟨e, e'⟩ | ⟨_, e'⟩ <;> rw [e'] at hn
    · rcases List.mem_append.1 hn with hn | hn
      · subst e; exact h.newSm n hn
      · exact hnew n hn
    · exact h.newSm n hn
  · intro n hn
    rcases hseq lg with ⟨e, e'⟩ | ⟨_, e'⟩ <;> rw [e'] at hn
    · rcases List.mem_append.1 hn with hn | hn
      · subst e; exact h.newLg n hn
      · exact hnew n hn
    · exact h.newLg n hn

/-- Values of the extended list and of the others after an append. -/
theorem vals_alloc {s s' : St T} {l : Nat} {ns vs} (ha : s.Alloc ns vs l (s.seq l ++ ns) s')
    (he : ∀ x, ∀ n ∈ s.seq x, s.val n ≠ none) :
    valsOf s'.val (s'.seq l) = valsOf s.val (s.seq l) ++ vs ∧
    ∀ x, x ≠ l → valsOf s'.val (s'.seq x) = valsOf s.val (s.seq x) := by
  constructor
  · rw [ha.seq_self, valsOf_append, ha.2.2.2.2.1]
    congr 1
    exact valsOf_congr fun n hn => ha.old (he l n hn)
  · intro x hx
    rw [ha.seq_other hx]
    exact valsOf_congr fun n hn => ha.old (he x n hn)

/-- What the specification says about `Sort`, in a form that is convenient for recursion. -/
structure SortPost (less : T → T → Bool) (s : St T) (l : Nat) (s' : St T) : Prop where
  lists : s'.lists = s.lists
  other : ∀ x, x ≠ l → s'.seq x = s.seq x
  perm : (valsOf s'.val (s'.seq l)).Perm (valsOf s.val (s.seq l))
  stable : StrictWeak less →
    StableSorted less (valsOf s.val (s.seq l)) (valsOf s'.val (s'.seq l))
  new : ∀ n ∈ s'.seq l, s.val n = none ∨ n ∈ s.seq l
  old : ∀ n, s.val n ≠ none → s'.val n = s.val n
  stale : ∀ n, s'.stale n → s.stale n ∨ n ∈ s.seq l

theorem sortPost_of_step {less : T → T → Bool} {l : Nat} {s' : St T}
    (h : s.Step (.sort l less) .unit s') : SortPost less s l s' := by
  obtain ⟨_, h⟩ := h
  split at h
  · next hlen =>
    subst h
    refine ⟨rfl, fun _ _ => rfl, List.Perm.refl _, fun _ => ⟨?_, fun _ => rfl⟩,
      fun n hn => Or.inr hn, fun _ _ => rfl, fun n hn => Or.inl hn⟩
    have : (valsOf s'.val (s'.seq l)).length ≤ 1 :=
      Nat.le_trans (List.length_filterMap_le _ _) hlen
    match valsOf s'.val (s'.seq l), this with
    | [], _ => exact List.Pairwise.nil
    | [a], _ => simp
  · obtain ⟨ns, vs, s1, h1, h2, h3, rfl⟩ := h
    have hvals : valsOf s1.val (s1.seq l) = vs := by rw [h3.seq_self]; exact h3.2.2.2.2.1
    exact ⟨h3.2.1, fun x hx => h3.seq_other hx, by rw [hvals]; exact h1,
      fun hw => by rw [hvals]; exact h2 hw,
      fun n hn => Or.inl (h3.1.2 n (by have := h3.seq_self; rw [this] at hn; exact hn)),
      fun n hn => h3.old hn, fun n hn => by
        rcases hn with hn | hn
        · exact Or.inr hn
        · rw [← h3.2.2.1] at hn ⊢; exact Or.inl hn⟩

theorem Fr.sorted {less : T → T → Bool} {s0 s s' : St T} {l sm lg x : Nat}
    (h : Fr s0 l sm lg s) (hx : x = sm ∨ x = lg) (hp : SortPost less s x s') :
    Fr s0 l sm lg s' := by
  have hxn : ∀ n ∈ s.seq x, s0.val n = none := by
    rcases hx with rfl | rfl
    · exact h.newSm
    · exact h.newLg
  have hnew : ∀ n ∈ s'.seq x, s0.val n = none := by
    intro n hn
    rcases hp.new n hn with h1 | h1
    · exact h.new_of h1
    · exact hxn n h1
  refine ⟨by rw [hp.lists]; exact h.lists, ?_, ?_, ?_, ?_, ?_⟩
  · intro y h1 h2 h3
    have : y ≠ x := by rcases hx with rfl | rfl <;> assumption
    rw [hp.other y this]; exact h.other y h1 h2 h3
  · intro n hn; rw [hp.old n (by rw [h.old n hn]; exact hn), h.old n hn]
  · intro n hn
    by_cases e : sm = x
    · subst e; exact hnew n hn
    · rw [hp.other sm e] at hn; exact h.newSm n hn
  · intro n hn
    by_cases e : lg = x
    · subst e; exact hnew n hn
    · rw [hp.other lg e] at hn; exact h.newLg n hn
  · intro n hn hs
    rcases hp.stale n hs with h1 | h1
    · exact h.stale n hn h1
    · rw [hxn n h1] at hn; exact (hn rfl).elim

/-- Copying a list to the back of another one, value by value. -/
theorem range_copy {s0 : St T} {l sm lg o : Nat} (hlo : o ≠ l) (hl0 : s0.lists l)
    (hsm : l ≠ sm) (hlg : l ≠ lg)
    (h : Sim m s S) (hf : Fr s0 l sm lg s) (ho : s.lists o)
    (hnl : ∀ n ∈ s.seq l, s0.val n = none) :
    ∃ m' s' S', (∀ fuel, (s.seq o).length < fuel → range (fun m (_ : Unit) e => do
        let v ← Dllist.value m e
        let (m, _) ← Dllist.pushBack m l v
        some (m, (), true)) fuel m () o = some (m', (), true)) ∧
      Sim m' s' S' ∧ Fr s0 l sm lg s' ∧ (∀ n ∈ s'.seq l, s0.val n = none) ∧
      (∀ x, x ≠ l → s'.seq x = s.seq x ∧ valsOf s'.val (s'.seq x) = valsOf s.val (s.seq x)) ∧
      valsOf s'.val (s'.seq l) = valsOf s.val (s.seq l) ++ valsOf s.val (s.seq o) ∧
      (∀ n, s'.stale n ↔ s.stale n) := by
  obtain ⟨m1, e1, h1, _⟩ := h.front ho
  obtain ⟨m', _, hr, s', S', i1, i2, i3, i4, i5, i6, i7⟩ := rangeLoop_ind
    (body := fun m (_ : Unit) e => do
        let v ← Dllist.value m e
        let (m, _) ← Dllist.pushBack m l v
        some (m, (), true))
    (fun done m _ => ∃ s1 S1, Sim m s1 S1 ∧ Fr s0 l sm lg s1 ∧ (∀ n ∈ s1.seq l, s0.val n = none) ∧
      (∀ x, x ≠ l → s1.seq x = s.seq x ∧ valsOf s1.val (s1.seq x) = valsOf s.val (s.seq x)) ∧
      valsOf s1.val (s1.seq l) = valsOf s.val (s.seq l) ++ valsOf s.val done ∧
      (∀ n, s1.stale n ↔ s.stale n) ∧ ∀ n, s.val n ≠ none → s1.val n = s.val n) (s.seq o)
    (by
      rintro done e rest m2 a hfull ⟨s1, S1, j1, j2, j3, j4, j5, j6, j7⟩
      have hso : s1.seq o = done ++ e :: rest := by rw [(j4 o hlo).1, hfull]
      obtain ⟨v, hv, hmv⟩ := j1.value (l := o) (n := e) (by rw [hso]; simp)
      have hv0 : s.val e = some v := by
        rw [← j7 e (h.elems o e (by rw [hfull]; simp)), hv]
      have hl1 : s1.lists l := (j2.lists l).2 (Or.inr (Or.inr hl0))
      obtain ⟨m3, s3, S3, e3, ha, hs3⟩ := j1.pushBack hl1 v
      obtain ⟨k1, k2⟩ := vals_alloc ha j1.elems
      refine ⟨m3, (), by simp [Dllist.value, hmv, e3], ⟨s3, S3, hs3, j2.alloc (Or.inl rfl) ha,
        ?_, ?_, ?_, ?_, ?_⟩, hs3.elNext (l := o) (by rw [ha.seq_other hlo]; exact hso)⟩
      · intro n hn
        rw [ha.seq_self] at hn
        rcases List.mem_append.1 hn with hn | hn
        · exact j3 n hn
        · exact j2.new_of (ha.1.2 n hn)
      · intro x hx
        rw [k2 x hx, ha.seq_other hx]; exact j4 x hx
      · rw [k1, j5]; simp [valsOf, hv0]
      · intro n; rw [ha.2.2.1]; exact j6 n
      · intro n hn; rw [ha.old (by rw [j7 n hn]; exact hn), j7 n hn])
    (s.seq o) [] m1 () rfl ⟨s, S, h1, hf, hnl, fun _ _ => ⟨rfl, rfl⟩, by simp [valsOf],
      fun _ => Iff.rfl, fun _ _ => rfl⟩
  refine ⟨m', s', S', fun fuel hlt => ?_, i1, i2, i3, i4, i5, i6⟩
  unfold Dllist.range
  rw [e1]
  exact hr fuel hlt

theorem Sim.sort (less : T → T → Bool) : ∀ (k : Nat) {m : Mem T} {s : St T} {S : Nat → List Nat}
    (_ : Sim m s S) {l : Nat} (_ : s.lists l), (s.seq l).length ≤ k →
    ∃ m' s' S', (∀ fuel, (s.seq l).length < fuel → sort less fuel m l = some m') ∧
      s.Step (.sort l less) .unit s' ∧ Sim m' s' S' := by
  intro k
  induction k with
  | zero =>
    intro m s S h l hl hk
    refine ⟨m, s, S, ?_, ⟨rfl, by rw [if_pos (by omega)]⟩, h⟩
    intro fuel hf
    cases fuel with
    | zero => omega
    | succ f =>
      unfold Dllist.sort
      rw [if_pos (by rw [h.rep.len, h.seq l hl]; omega)]
  | succ k ih =>
    intro m s S h l hl hk
    by_cases hshort : (s.seq l).length ≤ 1
    · refine ⟨m, s, S, ?_, ⟨rfl, by rw [if_pos hshort]⟩, h⟩
      intro fuel hf
      cases fuel with
      | zero => omega
      | succ f =>
        unfold Dllist.sort
        rw [if_pos (by rw [h.rep.len, h.seq l hl]; omega)]
    · -- at least two elements
      have hne : s.seq l ≠ [] := by intro e; rw [e] at hshort; simp at hshort
      obtain ⟨p, R, hL⟩ := List.exists_cons_of_ne_nil hne
      have hp : p ∈ s.seq l := by rw [hL]; simp
      obtain ⟨pv, hpv, hmpv⟩ := h.value hp
      -- l.Front()
      obtain ⟨m1, e1, h1, _⟩ := h.front hl
      have hmpv1 := h1.val p pv hpv
      -- smaller := New(); larger := New()
      obtain ⟨n1, n2, h2⟩ := h1.new
      obtain ⟨n3, n4, h3⟩ := h2.new
      generalize hsm : m1.freshL = sm at *
      generalize hlg : (Dllist.new m1).1.freshL = lg at *
      simp only [not_or] at n4
      have hlsm : l ≠ sm := by rintro rfl; exact n2 hl
      have hllg : l ≠ lg := by rintro rfl; exact n4.2 hl
      have hsmlg : sm ≠ lg := fun e => n4.1 e.symm
      generalize hs3 : ({
          lists := fun x => x = lg ∨ x = sm ∨ s.lists x,
          seq := Spec.set (Spec.set s.seq sm []) lg [], val := s.val, stale := s.stale } : St T) =
          s3 at h3
      have hz1 : s.seq sm = [] := h.noList sm n2
      have hz2 : s.seq lg = [] := h.noList lg n4.2
      have hseq3 : s3.seq = s.seq := by
        rw [← hs3]
        show Spec.set (Spec.set s.seq sm []) lg [] = s.seq
        funext x; simp only [Spec.set]
        split
        · next e => rw [e, hz2]
        · split
          · next e => rw [e, hz1]
          · rfl
      have hval3 : s3.val = s.val := by rw [← hs3]
      have hstale3 : s3.stale = s.stale := by rw [← hs3]
      have hlists3 : ∀ x, s3.lists x ↔ x = sm ∨ x = lg ∨ s.lists x := by
        intro x; rw [← hs3]; constructor
        · rintro (h | h | h) <;> simp [h]
        · rintro (h | h | h)
          · exact Or.inr (Or.inl h)
          · exact Or.inl h
          · exact Or.inr (Or.inr h)
      have hfr3 : Fr s l sm lg s3 := by
        refine ⟨hlists3, ?_, ?_, ?_, ?_, ?_⟩
        · intro x _ _ _; rw [hseq3]
        · intro n _; rw [hval3]
        · intro n hn; rw [hseq3, hz1] at hn; simp at hn
        · intro n hn; rw [hseq3, hz2] at hn; simp at hn
        · intro n _ hs; rw [hstale3] at hs; exact Or.inl hs
      -- l.Front() again
      have hl3 : s3.lists l := (hlists3 l).2 (Or.inr (Or.inr hl))
      obtain ⟨m4, e4, h4, _⟩ := h3.front hl3
      have hLR : s3.seq l = [] ++ p :: R := by rw [hseq3, hL]; rfl
      have hnext4 := h4.elNext hLR
      -- the partition loop
      obtain ⟨m5, _, hr5, s5, S5, h5, hfr5, hsl5, hA5, hB5⟩ := rangeLoop_ind
        (body := fun m (_ : Unit) e => do
          let v ← Dllist.value m e
          if less v pv then do
            let (m, _) ← Dllist.pushBack m sm v
            some (m, (), true)
          else do
            let (m, _) ← Dllist.pushBack m lg v
            some (m, (), true))
        (fun done m _ => ∃ s1 S1, Sim m s1 S1 ∧ Fr s l sm lg s1 ∧ s1.seq l = p :: R ∧
          valsOf s1.val (s1.seq sm) = (valsOf s.val done).filter (fun v => less v pv) ∧
          valsOf s1.val (s1.seq lg) = (valsOf s.val done).filter (fun v => !less v pv)) R
        (by
          rintro done e rest m2 a hfull ⟨s1, S1, j1, j2, j3, j4, j5⟩
          have he : e ∈ s1.seq l := by rw [j3, hfull]; simp
          obtain ⟨v, hv, hmv⟩ := j1.value he
          have he0 : e ∈ s.seq l := by rw [hL, hfull]; simp
          have hv0 : s.val e = some v := by rw [← j2.old e (h.elems l e he0), hv]
          have hd : valsOf s.val (done ++ [e]) = valsOf s.val done ++ [v] := by
            simp [valsOf, hv0]
          by_cases hc : less v pv
          · obtain ⟨m3, s3, S3, e3, ha, hs3⟩ := j1.pushBack ((j2.lists sm).2 (Or.inl rfl)) v
            obtain ⟨k1, k2⟩ := vals_alloc ha j1.elems
            refine ⟨m3, (), by simp [Dllist.value, hmv, e3, hc], ⟨s3, S3, hs3,
              j2.alloc (Or.inr (Or.inl rfl)) ha, ?_, ?_, ?_⟩,
              hs3.elNext (l := l) (xs := p :: done) ?_⟩
            · rw [ha.seq_other hlsm]; exact j3
            · rw [k1, j4, hd, List.filter_append]; simp [hc]
            · rw [k2 lg (Ne.symm hsmlg), j5, hd, List.filter_append]; simp [hc]
            · rw [ha.seq_other hlsm, j3, hfull]; rfl
          · obtain ⟨m3, s3, S3, e3, ha, hs3⟩ :=
              j1.pushBack ((j2.lists lg).2 (Or.inr (Or.inl rfl))) v
            obtain ⟨k1, k2⟩ := vals_alloc ha j1.elems
            refine ⟨m3, (), by simp [Dllist.value, hmv, e3, hc], ⟨s3, S3, hs3,
              j2.alloc (Or.inr (Or.inr rfl)) ha, ?_, ?_, ?_⟩,
              hs3.elNext (l := l) (xs := p :: done) ?_⟩
            · rw [ha.seq_other hllg]; exact j3
            · rw [k2 sm hsmlg, j4, hd, List.filter_append]; simp [hc]
            · rw [k1, j5, hd, List.filter_append]; simp [hc]
            · rw [ha.seq_other hllg, j3, hfull]; rfl)
        R [] m4 () rfl ⟨s3, _, h4, hfr3, by rw [hLR]; rfl,
          by rw [hseq3, hz1]; simp [valsOf], by rw [hseq3, hz2]; simp [valsOf]⟩
      have hRlen : R.length ≤ k := by rw [hL] at hk; simpa using hk
      have lenOf : ∀ {t : St T} {x : Nat}, (∀ x, ∀ n ∈ t.seq x, t.val n ≠ none) →
          (t.seq x).length = (valsOf t.val (t.seq x)).length := by
        intro t x he
        have : ∀ xs : List Nat, (∀ n ∈ xs, t.val n ≠ none) →
            (valsOf t.val xs).length = xs.length := by
          intro xs
          induction xs with
          | nil => intro _; rfl
          | cons a xs ih =>
            intro hn
            obtain ⟨w, hw⟩ := Option.ne_none_iff_exists'.1 (hn a (by simp))
            have := ih fun n h => hn n (by simp [h])
            simp only [valsOf] at this
            simp [valsOf, hw, this]
        exact (this _ (he x)).symm
      have hRl : (valsOf s.val R).length ≤ R.length := List.length_filterMap_le _ _
      have hlenA : (s5.seq sm).length ≤ R.length := by
        rw [lenOf h5.elems, hA5]
        exact Nat.le_trans (List.length_filter_le _ _) hRl
      have hlenB : (s5.seq lg).length ≤ R.length := by
        rw [lenOf h5.elems, hB5]
        exact Nat.le_trans (List.length_filter_le _ _) hRl
      -- smaller.Sort
      have hl5 : s5.lists sm := (hfr5.lists sm).2 (Or.inl rfl)
      obtain ⟨m6, s6, S6, hr6, hst6, h6⟩ := ih h5 hl5 (Nat.le_trans hlenA hRlen)
      have sp6 := sortPost_of_step hst6
      have hfr6 := hfr5.sorted (Or.inl rfl) sp6
      -- larger.Sort
      have hl6 : s6.lists lg := (hfr6.lists lg).2 (Or.inr (Or.inl rfl))
      have hlenB6 : (s6.seq lg).length ≤ R.length := by rw [sp6.other lg (Ne.symm hsmlg)]; exact hlenB
      obtain ⟨m7, s7, S7, hr7, hst7, h7⟩ := ih h6 hl6 (Nat.le_trans hlenB6 hRlen)
      have sp7 := sortPost_of_step hst7
      have hfr7 := hfr6.sorted (Or.inr rfl) sp7
      have hsl7 : s7.seq l = p :: R := by rw [sp7.other l hllg, sp6.other l hlsm, hsl5]
      -- the values in the two auxiliary lists
      have hA6 : valsOf s7.val (s7.seq sm) = valsOf s6.val (s6.seq sm) := by
        rw [sp7.other sm hsmlg]
        exact valsOf_congr fun n hn => sp7.old n (h6.elems sm n hn)
      have hB6 : valsOf s6.val (s6.seq lg) = valsOf s5.val (s5.seq lg) := by
        rw [sp6.other lg (Ne.symm hsmlg)]
        exact valsOf_congr fun n hn => sp6.old n (h5.elems lg n hn)
      have pA : (valsOf s7.val (s7.seq sm)).Perm
          ((valsOf s.val R).filter (fun v => less v pv)) := by
        rw [hA6, ← hA5]; exact sp6.perm
      have pB : (valsOf s7.val (s7.seq lg)).Perm
          ((valsOf s.val R).filter (fun v => !less v pv)) := by
        rw [← hB5, ← hB6]; exact sp7.perm
      have hlenA7 : (s7.seq sm).length ≤ R.length := by
        rw [lenOf h7.elems, pA.length_eq]
        exact Nat.le_trans (List.length_filter_le _ _) hRl
      have hlenB7 : (s7.seq lg).length ≤ R.length := by
        rw [lenOf h7.elems, pB.length_eq]
        exact Nat.le_trans (List.length_filter_le _ _) hRl
      -- l.Clear()
      have hl7 : s7.lists l := (hfr7.lists l).2 (Or.inr (Or.inr hl))
      have h8 := h7.clear hl7
      generalize hs8 : ({ s7 with
          seq := Spec.set s7.seq l [], stale := fun n => n ∈ s7.seq l ∨ s7.stale n } : St T) = s8 at h8
      have hseq8 : s8.seq l = [] ∧ ∀ x, x ≠ l → s8.seq x = s7.seq x := by
        rw [← hs8]; exact ⟨by simp [Spec.set], fun x hx => by simp [Spec.set, hx]⟩
      have hval8 : s8.val = s7.val := by rw [← hs8]
      have hfr8 : Fr s l sm lg s8 := by
        refine ⟨by rw [← hs8]; exact hfr7.lists, ?_, by rw [hval8]; exact hfr7.old, ?_, ?_, ?_⟩
        · intro x h1 h2 h3; rw [hseq8.2 x h1]; exact hfr7.other x h1 h2 h3
        · intro n hn; rw [hseq8.2 sm (Ne.symm hlsm)] at hn; exact hfr7.newSm n hn
        · intro n hn; rw [hseq8.2 lg (Ne.symm hllg)] at hn; exact hfr7.newLg n hn
        · intro n hn hs
          rw [← hs8] at hs
          rcases hs with hs | hs
          · rw [hsl7, ← hL] at hs; exact Or.inr hs
          · exact hfr7.stale n hn hs
      -- copy smaller
      obtain ⟨m9, s9, S9, hr9, h9, hfr9, hn9, ho9, hv9, hst9⟩ := range_copy (Ne.symm hlsm) hl
        hlsm hllg h8 hfr8 ((hfr8.lists sm).2 (Or.inl rfl))
        (by intro n hn; rw [hseq8.1] at hn; simp at hn)
      -- PushBack(pivot)
      obtain ⟨m10, s10, S10, e10, ha10, h10⟩ := h9.pushBack
        ((hfr9.lists l).2 (Or.inr (Or.inr hl))) pv
      have hfr10 := hfr9.alloc (Or.inl rfl) ha10
      obtain ⟨k1, k2⟩ := vals_alloc ha10 h9.elems
      have hn10 : ∀ n ∈ s10.seq l, s.val n = none := by
        intro n hn
        rw [ha10.seq_self] at hn
        rcases List.mem_append.1 hn with hn | hn
        · exact hn9 n hn
        · exact hfr9.new_of (ha10.1.2 n hn)
      -- copy larger
      obtain ⟨m11, s11, S11, hr11, h11, hfr11, hn11, ho11, hv11, hst11⟩ := range_copy
        (Ne.symm hllg) hl hlsm hllg h10 hfr10 ((hfr10.lists lg).2 (Or.inr (Or.inl rfl))) hn10
      have hvals : valsOf s11.val (s11.seq l) =
          valsOf s7.val (s7.seq sm) ++ pv :: valsOf s7.val (s7.seq lg) := by
        rw [hv11, k1, hv9, hseq8.1, k2 lg (Ne.symm hllg), (ho9 lg (Ne.symm hllg)).2,
          hseq8.2 sm (Ne.symm hlsm), hseq8.2 lg (Ne.symm hllg), hval8]
        simp [valsOf]
      have hv0 : valsOf s.val (s.seq l) = pv :: valsOf s.val R := by
        rw [hL]; simp [valsOf, hpv]
      have hseqlen : R.length < (s.seq l).length := by rw [hL]; simp
      -- the final abstract state forgets the auxiliary lists
      let sA : St T := { lists := s.lists, seq := Spec.set s.seq l (s11.seq l),
                         val := fun n => if n ∈ s11.seq l then s11.val n else s.val n,
                         stale := s.stale }
      refine ⟨m11, { sA with stale := fun n => n ∈ s.seq l ∨ s.stale n }, S11, ?_, ⟨rfl, ?_⟩, ?_⟩
      · intro fuel hf
        cases fuel with
        | zero => omega
        | succ f =>
          unfold Dllist.sort
          have hlen : ¬ m.len l ≤ 1 := by rw [h.rep.len, h.seq l hl]; omega
          have n3' : (Dllist.new (Dllist.new m1).fst).snd = lg := n3
          rw [if_neg hlen, e1, hL]
          simp only [List.head?_cons, Option.map_some, Option.bind_eq_bind, Option.bind_some,
            Dllist.value, hmpv1, n1, n3', e4, hseq3, hL]
          have hr5' := hr5 f (by omega)
          simp only [Option.bind_eq_bind, Dllist.value] at hr5'
          rw [hnext4]
          rw [hr5']
          simp only [Option.bind_some]
          rw [hr6 f (by omega)]
          simp only [Option.bind_some]
          rw [hr7 f (by omega)]
          simp only [Option.bind_some]
          have hr9' := hr9 f (by rw [hseq8.2 sm (Ne.symm hlsm)]; omega)
          simp only [Option.bind_eq_bind, Dllist.value] at hr9'
          rw [hr9']
          simp only [Option.bind_some]
          rw [e10]
          simp only [Option.bind_some]
          have hr11' := hr11 f (by
            rw [ha10.seq_other (Ne.symm hllg), (ho9 lg (Ne.symm hllg)).1,
              hseq8.2 lg (Ne.symm hllg)]; omega)
          simp only [Option.bind_eq_bind, Dllist.value] at hr11'
          rw [hr11']
          rfl
      · rw [if_neg hshort]
        refine ⟨s11.seq l, valsOf s11.val (s11.seq l), sA, ?_, ?_, ?_, rfl⟩
        · rw [hvals, hv0]; exact perm_join pA pB
        · intro hw
          rw [hvals, hv0]
          refine sorted_join hw ?_ pA ?_ pB
          · rw [hA6, ← hA5]; exact sp6.stable hw
          · rw [← hB5, ← hB6]; exact sp7.stable hw
        · refine ⟨⟨h11.nodup l, hn11⟩, rfl, rfl, rfl, ?_, ?_, ?_⟩
          · exact valsOf_congr fun n hn => by simp [sA, hn]
          · intro n hn
            obtain ⟨w, hw, _⟩ := h11.value hn
            simp [sA, hn, hw]
          · intro n hn; simp [sA, hn]
      · refine h11.hide ?_ ?_ ?_ ?_ ?_ ?_
        · intro x hx
          refine ⟨(hfr11.lists x).2 (Or.inr (Or.inr hx)), ?_⟩
          show Spec.set s.seq l (s11.seq l) x = _
          simp only [Spec.set]
          split
          · next e => rw [e]
          · next e =>
            refine (hfr11.other x e ?_ ?_).symm
            · rintro rfl; exact n2 hx
            · rintro rfl; exact n4.2 hx
        · intro x hx
          show Spec.set s.seq l (s11.seq l) x = _
          simp only [Spec.set]
          split
          · next e => subst e; exact (hx hl).elim
          · exact h.noList x hx
        · intro n v hn
          simp only [sA] at hn
          split at hn
          · exact hn
          · rw [hfr11.old n (by rw [hn]; simp)]; exact hn
        · intro x n hn
          simp only [sA, Spec.set] at hn ⊢
          split
          · next hn' => exact h11.elems l n hn'
          · split at hn
            · contradiction
            · exact h.elems x n hn
        · intro n hn hs
          simp only [sA] at hn
          split at hn
          · next hn' =>
            exact Or.inr ⟨l, hl, by simpa [sA, Spec.set] using hn'⟩
          · exact Or.inl (hfr11.stale n hn hs).symm
        · intro x hx hx' n hn
          have hx1 : x ≠ l := by rintro rfl; exact hx' hl
          have hx2 : x = sm ∨ x = lg := by
            rcases (hfr11.lists x).1 hx with h | h | h
            · exact Or.inl h
            · exact Or.inr h
            · exact (hx' h).elim
          have hz : s.val n = none := by
            rcases hx2 with rfl | rfl
            · exact hfr11.newSm n hn
            · exact hfr11.newLg n hn
          simp only [sA]
          split
          · next hc => exact (hx1 (h11.unique hn hc)).elim
          · exact hz

end Verif.Dllist
