import Verif.Vec.Hidden
/-!
# Slices handed out by a vector (C180)

`Slice` and `SliceCut` (vec.go:245-254) return parts of the array in which the vector keeps its elements.  The caller may
read and write them and go on using the vector.  Here: what the two see of each other.
-/
namespace Verif.Vec
variable {T : Type} {E : Elt T} {g : Nat → Nat} {P : SortImpl T} {m : VMem T}

/-! ## Which arrays a call writes -/

/-- From memory `m` and slice `s` to `m'` and `s'`: of the arrays that were there only the one of `s` is written; `s'` begins
where `s` began, or is in a new array. -/
structure Foot (m : Mem T) (s : Slice) (m' : Mem T) (s' : Slice) : Prop where
  na : m.na ≤ m'.na
  frame : ∀ a, a < m.na → a ≠ s.a → m'.arr a = m.arr a
  place : s'.a = s.a ∧ s'.off = s.off ∨ m.na ≤ s'.a

theorem Foot.trans {m m' m'' : Mem T} {s s' s'' : Slice} (h : Foot m s m' s') (h' : Foot m' s' m'' s'') : Foot m s m'' s'' := by
  have n1 := h.na
  refine ⟨Nat.le_trans h.na h'.na, ?_, ?_⟩
  · intro a ha hne
    rw [h'.frame a (by omega) ?_, h.frame a ha hne]
    rcases h.place with ⟨e, _⟩ | e
    · rw [e]; exact hne
    · omega
  · rcases h'.place with ⟨e1, e2⟩ | e
    · rcases h.place with ⟨d1, d2⟩ | d
      · exact .inl ⟨e1.trans d1, e2.trans d2⟩
      · exact .inr (by omega)
    · exact .inr (by omega)

/-- Only where it begins counts. -/
theorem Foot.part {m m' : Mem T} {s s' t t' : Slice} (h : Foot m s m' s') (ha : t.a = s.a) (ho : t.off = s.off) (ha' : t'.a = s'.a)
    (ho' : t'.off = s'.off) : Foot m t m' t' :=
  ⟨h.na, fun a hl hne => h.frame a hl (by rw [← ha]; exact hne), by rw [ha', ho', ha, ho]; exact h.place⟩

theorem foot_refl (m : Mem T) (s : Slice) : Foot m s m s := ⟨Nat.le_refl _, fun _ _ _ => rfl, .inl ⟨rfl, rfl⟩⟩

theorem foot_write (m : Mem T) (s : Slice) (off : Nat) (xs : List T) : Foot m s (m.write s.a off xs) s :=
  ⟨Nat.le_refl _, fun _ _ hne => write_other m s.a off xs hne, .inl ⟨rfl, rfl⟩⟩

theorem foot_append (o : Option Nat) (m : Mem T) (s : Slice) (xs : List T) :
    Foot m s (append E g o m s xs).1 (append E g o m s xs).2 := by
  unfold append; split
  · exact (foot_write m s (s.off + s.len) xs).part rfl rfl rfl rfl
  · refine ⟨Nat.le_succ _, ?_, .inr (Nat.le_refl _)⟩
    intro a ha _
    simp only [Mem.alloc]; rw [if_neg (by omega)]

theorem foot_sub (o : Option Nat) (m : Mem T) (s : Slice) (i : Nat) (xs : List T) :
    Foot m s (append E g o m (sub s 0 i) xs).1 (append E g o m (sub s 0 i) xs).2 :=
  (foot_append o m (sub s 0 i) xs).part rfl rfl rfl rfl

theorem foot_grow (o : Option Nat) (m : Mem T) (s : Slice) (n : Nat) : Foot m s (growS E g o m s n).1 (growS E g o m s n).2 := by
  unfold growS; split
  · exact (foot_sub o m s s.cap _).part rfl rfl rfl rfl
  · exact foot_refl ..

theorem foot_insert (o : Option Nat) (m : Mem T) (s : Slice) (i : Nat) (xs : List T) :
    Foot m s (insertS E g o m s i xs).1 (insertS E g o m s i xs).2 := by
  unfold insertS; (repeat' split)
  · exact foot_refl ..
  · exact foot_append ..
  · exact (foot_sub ..).trans ((foot_write ..).trans (foot_write ..))
  · exact ((foot_write m s _ _).trans (foot_write _ s _ _)).part rfl rfl rfl rfl

theorem foot_delete (o : Option Nat) (m : Mem T) (s : Slice) (i j : Nat) :
    Foot m s (deleteS E g o m s i j).1 (deleteS E g o m s i j).2 := by
  unfold deleteS; split
  · exact foot_refl ..
  · exact (foot_sub ..).trans (foot_write ..)

theorem foot_replace (o : Option Nat) (m : Mem T) (s : Slice) (i j : Nat) (xs : List T) :
    Foot m s (replaceS E g o m s i j xs).1 (replaceS E g o m s i j xs).2 := by
  unfold replaceS; split
  · exact foot_insert ..
  · split
    · dsimp only
      split
      · have h := foot_sub (E := E) (g := g) o m s i xs
        refine ⟨h.na, ?_, h.place⟩
        intro a ha hne
        exact (write_other _ _ _ _ hne).trans (h.frame a ha hne)
      · exact foot_sub ..
    · dsimp only
      split
      · exact (foot_sub ..).trans ((foot_write ..).trans (foot_write ..))
      · split
        · exact ((foot_write m s _ _).trans ((foot_write _ s _ _).trans (foot_write _ s _ _))).part rfl rfl rfl rfl
        · exact ((foot_write m s _ _).trans (foot_write _ s _ _)).part rfl rfl rfl rfl

theorem foot_compact (m : Mem T) (s : Slice) (eq : T → T → Bool) : Foot m s (compactS E m s eq).1 (compactS E m s eq).2 := by
  unfold compactS; split
  · exact foot_refl ..
  · exact ((foot_write m s _ _).trans (foot_write _ s _ _)).part rfl rfl rfl rfl

/-- The same for a call with receiver `v`. -/
structure VFoot (m m' : VMem T) (v : Option Nat) : Prop where
  nv : m.nv ≤ m'.nv
  na : m.mem.na ≤ m'.mem.na
  frame : ∀ a, a < m.mem.na → (∀ u, v = some u → a ≠ (m.d u).a) → m'.mem.arr a = m.mem.arr a
  place : ∀ w, w < m.nv → ((m'.d w).a = (m.d w).a ∧ (m'.d w).off = (m.d w).off) ∨ (v = some w ∧ m.mem.na ≤ (m'.d w).a)

theorem vfoot_refl (m : VMem T) (v : Option Nat) : VFoot m m v :=
  ⟨Nat.le_refl _, Nat.le_refl _, fun _ _ _ => rfl, fun _ _ => .inl ⟨rfl, rfl⟩⟩

theorem VFoot.trans {m m' m'' : VMem T} {v : Option Nat} (h : VFoot m m' v) (h' : VFoot m' m'' v) (hv : ∀ u, v = some u → u < m.nv) :
    VFoot m m'' v := by
  have n1 := h.na; have n2 := h.nv
  refine ⟨Nat.le_trans h.nv h'.nv, Nat.le_trans h.na h'.na, ?_, ?_⟩
  · intro a ha hne
    rw [h'.frame a (by omega) ?_, h.frame a ha hne]
    intro u hu
    rcases h.place u (hv u hu) with ⟨e, _⟩ | ⟨_, e⟩
    · rw [e]; exact hne u hu
    · omega
  · intro w hw
    rcases h'.place w (by omega) with ⟨e1, e2⟩ | ⟨e0, e⟩
    · rcases h.place w hw with ⟨d1, d2⟩ | ⟨d0, d⟩
      · exact .inl ⟨e1.trans d1, e2.trans d2⟩
      · exact .inr ⟨d0, by omega⟩
    · exact .inr ⟨e0, by omega⟩

theorem Foot.setD {m : VMem T} {v : Nat} {r : Mem T × Slice} (h : Foot m.mem (m.d v) r.1 r.2) : VFoot m (m.setD v r) (some v) := by
  refine ⟨Nat.le_refl _, h.na, fun a ha hne => h.frame a ha (hne v rfl), ?_⟩
  intro w _
  by_cases e : w = v
  · subst e
    rw [setD_d]
    rcases h.place with e | e
    · exact .inl e
    · exact .inr ⟨rfl, e⟩
  · exact .inl (by simp [VMem.setD, VMem.d, e])

theorem vfoot_push (m : VMem T) (v : Nat) (xs : List T) (hv : v < m.nv) : VFoot m (push E g m v xs) (some v) := by
  unfold push; dsimp only; split
  · exact (foot_grow ..).setD.trans (foot_append ..).setD (by rintro u ⟨⟩; exact hv)
  · exact (foot_append ..).setD

theorem vfoot_remove (m : VMem T) (v : Nat) (i : Int) : VFoot m (remove E m v i).1 (some v) := by
  unfold remove; dsimp only; split
  · exact vfoot_refl ..
  · split
    · exact Foot.setD ((foot_refl m.mem (m.d v)).part rfl rfl rfl rfl)
    · exact Foot.setD ((foot_write m.mem (m.d v) _ _).part rfl rfl rfl rfl)

theorem vfoot_cut (m : VMem T) (v : Nat) (i j : Int) : VFoot m (cut E g m v i j).1 (some v) := by
  unfold cut; split
  · exact vfoot_refl ..
  · exact (foot_sub ..).setD

theorem new_d (m : VMem T) (l e : Cmp T) {w : Nat} (hw : w < m.nv) : (m.new l e).d w = m.d w := by
  simp only [VMem.new, VMem.d]; rw [if_neg (by omega)]

theorem vfoot_new (m : VMem T) (l e : Cmp T) (v : Option Nat) : VFoot m (m.new l e) v := by
  refine ⟨Nat.le_succ _, Nat.le_succ _, ?_, fun w hw => .inl (by rw [new_d m l e hw]; exact ⟨rfl, rfl⟩)⟩
  intro a ha _
  simp only [VMem.new, Mem.alloc]; rw [if_neg (by omega)]

/-- A call for a vector that was not there before touches nothing that was. -/
theorem VFoot.fresh {m m' m'' : VMem T} {n : Nat} {v : Option Nat} (h : VFoot m m' v) (h' : VFoot m' m'' (some n)) (hn : m.nv ≤ n)
    (hd : m.mem.na ≤ (m'.d n).a) : VFoot m m'' v := by
  have n1 := h.na; have n2 := h.nv
  refine ⟨Nat.le_trans h.nv h'.nv, Nat.le_trans h.na h'.na, ?_, ?_⟩
  · intro a ha hne
    rw [h'.frame a (by omega) (by rintro u ⟨⟩; omega), h.frame a ha hne]
  · intro w hw
    rcases h'.place w (by omega) with ⟨e1, e2⟩ | ⟨e0, e⟩
    · rcases h.place w hw with ⟨d1, d2⟩ | ⟨d0, d⟩
      · exact .inl ⟨e1.trans d1, e2.trans d2⟩
      · exact .inr ⟨d0, by omega⟩
    · cases e0; omega

theorem exec_foot (op : Mut T) (hok : ∀ v, op.recv = some v → v < m.nv) {m' : VMem T} {r : Res T}
    (he : exec E g P m op = some (m', r)) : VFoot m m' op.recv := by
  have hsort : ∀ {f : List T → Option (List T)} {v : Nat}, sortBy f m v = some (m', r) → VFoot m m' (some v) := by
    intro f v he
    obtain ⟨l, _, he⟩ := Option.map_eq_some_iff.1 he
    cases he; exact (foot_write ..).setD
  have hrem : ∀ {v : Nat} {i : Int}, remove E m v i = (m', r) → VFoot m m' (some v) := by
    intro v i he
    have := vfoot_remove (E := E) m v i; rwa [he] at this
  have hnd : ∀ l e, m.mem.na ≤ ((m.new l e).d m.nv).a := by intro l e; simp [VMem.new, VMem.d]
  cases op with
  | new => cases he; exact vfoot_new ..
  | setCmpLess v f =>
    cases he
    refine ⟨Nat.le_refl _, Nat.le_refl _, fun _ _ _ => rfl, fun w _ => .inl ?_⟩
    simp only [VMem.d]; split
    · next e => subst e; exact ⟨rfl, rfl⟩
    · exact ⟨rfl, rfl⟩
  | setCmpEqual v f =>
    cases he
    refine ⟨Nat.le_refl _, Nat.le_refl _, fun _ _ _ => rfl, fun w _ => .inl ?_⟩
    simp only [VMem.d]; split
    · next e => subst e; exact ⟨rfl, rfl⟩
    · exact ⟨rfl, rfl⟩
  | push v xs => cases he; exact vfoot_push _ _ _ (hok v rfl)
  | pop v => simp only [exec] at he; injection he with he; exact hrem he
  | remove v i => simp only [exec] at he; injection he with he; exact hrem he
  | set => simp only [exec] at he; split at he <;> cases he <;> first | exact vfoot_refl _ _ | exact (foot_write ..).setD
  | clear v => cases he; exact Foot.setD ((foot_refl m.mem (m.d v)).part rfl rfl rfl rfl)
  | cut => cases he; exact vfoot_cut ..
  | splitOff v i =>
    cases he
    have hv := hok v rfl
    have h1 := vfoot_new m (.same v) (.same v) (some v)
    have h2 := vfoot_cut (E := E) (g := g) (m.new (.same v) (.same v)) v i ((m.new (.same v) (.same v)).len v)
    have h12 := h1.trans h2 (by rintro u ⟨⟩; exact hv)
    have hn : m.nv < (m.new (.same v) (.same v)).nv := Nat.lt_succ_self _
    have hn2 := h2.nv
    refine h12.fresh (n := m.nv) (vfoot_push _ _ _ (by omega)) (Nat.le_refl _) ?_
    rcases h2.place m.nv hn with ⟨e, _⟩ | ⟨e0, _⟩
    · rw [e]; exact hnd _ _
    · cases e0; omega
  | swap v i j =>
    simp only [exec, swap] at he
    split at he
    · cases he; exact vfoot_refl _ _
    · cases he; exact Foot.setD ((foot_write m.mem (m.d v) _ _).trans (foot_write _ (m.d v) _ _))
  | compareAndRemove v i x =>
    simp only [exec, compareAndRemove] at he
    split at he
    · cases he; exact vfoot_refl _ _
    · split at he
      · cases he
      · split at he
        · injection he with he; exact hrem he
        · cases he; exact vfoot_refl _ _
  | grow => simp only [exec] at he; split at he <;> cases he; exact (foot_grow ..).setD
  | clip v => cases he; exact Foot.setD ((foot_refl m.mem (m.d v)).part rfl rfl rfl rfl)
  | clone v =>
    cases he
    exact (vfoot_new m (.same v) (.same v) (some v)).fresh (vfoot_push _ _ _ (Nat.lt_succ_self _)) (Nat.le_refl _) (hnd _ _)
  | compact =>
    simp only [exec] at he
    split at he
    · cases he; exact vfoot_refl _ _
    · split at he
      · cases he
      · cases he; exact (foot_compact ..).setD
  | compactFunc => cases he; exact (foot_compact ..).setD
  | delete => simp only [exec] at he; split at he <;> cases he; exact (foot_delete ..).setD
  | insert => simp only [exec] at he; split at he <;> cases he; exact (foot_insert ..).setD
  | replace => simp only [exec] at he; split at he <;> cases he; exact (foot_replace ..).setD
  | reverse => cases he; exact (foot_write ..).setD
  | sort => exact hsort he
  | sortFunc => exact hsort he
  | sortStable => exact hsort he
  | sortStableFunc => exact hsort he

/-! ## When a vector gets a new array -/

/-- `s'` is in the array of `s` exactly when it has room there. -/
def Moves (s s' : Slice) : Prop := s'.a = s.a ↔ s'.len ≤ s.cap

theorem moves_append {o : Option Nat} {m : Mem T} {s : Slice} (hl : s.a < m.na) (xs : List T) : Moves s (append E g o m s xs).2 := by
  unfold append Moves; split
  · exact ⟨fun _ => by assumption, fun _ => rfl⟩
  · simp only; omega

theorem moves_sub {o : Option Nat} {m : Mem T} {s : Slice} (hl : s.a < m.na) (i : Nat) (xs : List T) :
    Moves s (append E g o m (sub s 0 i) xs).2 := by
  have := moves_append (E := E) (g := g) (o := o) (s := sub s 0 i) hl xs
  exact this

theorem moves_insert {o : Option Nat} {m : Mem T} {s : Slice} (hs : WF m s) (hl : s.a < m.na) (i : Nat) (xs : List T) :
    Moves s (insertS E g o m s i xs).2 := by
  have h1 := hs.1
  unfold insertS; (repeat' split)
  · exact ⟨fun _ => h1, fun _ => rfl⟩
  · exact moves_append hl xs
  · exact moves_sub hl _ _
  · exact ⟨fun _ => by simp only; omega, fun _ => rfl⟩

theorem moves_delete {o : Option Nat} {m : Mem T} {s : Slice} (hs : WF m s) (hl : s.a < m.na) (i j : Nat) :
    Moves s (deleteS E g o m s i j).2 := by
  have h1 := hs.1
  unfold deleteS; split
  · exact ⟨fun _ => h1, fun _ => rfl⟩
  · exact moves_sub hl _ _

theorem moves_replace {o : Option Nat} {m : Mem T} {s : Slice} (hs : WF m s) (hl : s.a < m.na) (i j : Nat) (xs : List T) :
    Moves s (replaceS E g o m s i j xs).2 := by
  have h1 := hs.1
  unfold replaceS; split
  · exact moves_insert hs hl i xs
  · split
    · dsimp only
      split <;> exact moves_sub hl _ _
    · dsimp only
      split
      · exact moves_sub hl _ _
      · split <;> exact ⟨fun _ => by simp only; omega, fun _ => rfl⟩

theorem moves_compact {m : Mem T} {s : Slice} (hs : WF m s) (eq : T → T → Bool) (hle : (compactS E m s eq).2.len ≤ s.len) :
    Moves s (compactS E m s eq).2 := by
  have h1 := hs.1
  refine ⟨fun _ => by omega, fun _ => ?_⟩
  unfold compactS; split <;> rfl

theorem grow_moves {o : Option Nat} {m : Mem T} {s : Slice} (hl : s.a < m.na) (hs : WF m s) (n : Nat) :
    (growS E g o m s n).2.a = s.a ↔ s.len + n ≤ s.cap := by
  have h1 := hs.1
  unfold growS; split
  · simp only [append, sub, List.length_replicate]
    rw [if_neg (by omega)]
    simp only; omega
  · simp only [true_iff]; omega

/-- The call asks for room without using it. -/
def Mut.grows (v : Nat) : Mut T → Prop
  | .grow w _ => w = v
  | _ => False

/-- **C180**: a call leaves a vector in its array exactly when the elements it then has fit there (`Cap` from before the call).
In particular no call that does not make the vector longer gives it a new array.  `Grow` is the exception: see `C180_grow`. -/
theorem C180_moves (hr : ARun E g P m) {op : Mut T} (hok : ∀ v, op.recv = some v → v < m.nv) {m' : VMem T} {r : Res T}
    (he : exec E g P m op = some (m', r)) {v : Nat} (hv : v < m.nv) (hg : ¬ op.grows v) :
    (m'.slice v).a = (m.slice v).a ↔ m'.len v ≤ m.cap v := by
  obtain ⟨s, hrel⟩ := hr.rel
  obtain ⟨hwf, hown, hlt⟩ := hrel.wf v hv
  have h1 := hwf.1
  show (m'.d v).a = (m.d v).a ↔ (m'.d v).len ≤ (m.d v).cap
  have hset : ∀ {w : Nat} {q : Mem T × Slice}, (w = v → Moves (m.d v) q.2) → Moves (m.d v) ((m.setD w q).d v) := by
    intro w q h
    by_cases e : v = w
    · subst e; rw [setD_d]; exact h rfl
    · have : (m.setD w q).d v = m.d v := by simp [VMem.setD, VMem.d, e]
      rw [this]; exact ⟨fun _ => h1, fun _ => rfl⟩
  have hsame : Moves (m.d v) (m.d v) := ⟨fun _ => h1, fun _ => rfl⟩
  have hshort : ∀ {n : Nat}, n ≤ (m.d v).len → Moves (m.d v) (sub (m.d v) 0 n) := by
    intro n hn; exact ⟨fun _ => by simp only [sub]; omega, fun _ => rfl⟩
  have hpush : ∀ {w : Nat} {xs : List T}, Moves (m.d v) ((push E g m w xs).d v) := by
    intro w xs
    by_cases e : v = w
    · subst e
      unfold push; dsimp only
      rw [setD_d]
      split
      · next hc =>
        have hc' : (m.d v).cap < (m.d v).len + xs.length := hc
        rw [setD_d, setD_mem]
        have hgr := grow_moves (E := E) (g := g) (o := some v) hlt hwf xs.length
        have hgf := foot_grow (E := E) (g := g) (some v) m.mem (m.d v) xs.length
        have haf := foot_append (E := E) (g := g) (some v) (growS E g (some v) m.mem (m.d v) xs.length).1
          (growS E g (some v) m.mem (m.d v) xs.length).2 xs
        have hlen : (append E g (some v) (growS E g (some v) m.mem (m.d v) xs.length).1
          (growS E g (some v) m.mem (m.d v) xs.length).2 xs).2.len = (m.d v).len + xs.length := by
          rw [append_len]; congr 1; unfold growS; split <;> rfl
        have n1 := hgf.na
        refine ⟨fun h => ?_, fun h => by omega⟩
        rcases haf.place with ⟨e, _⟩ | e
        · have := hgr.1 (e ▸ h); omega
        · omega
      · exact moves_append hlt xs
    · have : (push E g m w xs).d v = m.d v := by
        unfold push; dsimp only
        split <;> simp [VMem.setD, VMem.d, e]
      rw [this]; exact hsame
  have hrem : ∀ {w : Nat} {i : Int}, Moves (m.d v) ((remove E m w i).1.d v) := by
    intro w i
    unfold remove; dsimp only; split
    · exact hsame
    · next hi =>
      split
      · exact hset fun e => by subst e; exact hshort (by simp only [VMem.len] at hi; omega)
      · exact hset fun e => by subst e; exact hshort (by simp only [VMem.len] at hi ⊢; omega)
  have hrem' : ∀ {w : Nat} {i : Int}, remove E m w i = (m', r) → Moves (m.d v) (m'.d v) := by
    intro w i h; have := hrem (w := w) (i := i); rwa [h] at this
  have hsort : ∀ {f : List T → Option (List T)} {w : Nat}, sortBy f m w = some (m', r) → Moves (m.d v) (m'.d v) := by
    intro f w he
    obtain ⟨l, _, he⟩ := Option.map_eq_some_iff.1 he
    cases he; exact hset fun e => by subst e; exact hsame
  have hcomp : ∀ {w : Nat} (eq : T → T → Bool), Moves (m.d v) ((m.setD w (compactS E m.mem (m.d w) eq)).d v) := by
    intro w eq
    refine hset fun e => ?_
    subst e
    refine moves_compact hwf eq ?_
    have h2 := eff_compact (E := E) hwf hown hlt eq
    have h3 := read_length h2.wf
    rw [h2.read] at h3
    have h4 := read_length hwf
    have : (dedup eq (m.mem.read (m.d w))).length ≤ (m.mem.read (m.d w)).length := by
      cases m.mem.read (m.d w) with
      | nil => simp [dedup]
      | cons x l => have := dedup_length_le eq x l; simp [dedup]; omega
    omega
  change Moves (m.d v) (m'.d v)
  cases op with
  | new => cases he; rw [new_d _ _ _ hv]; exact hsame
  | setCmpLess w f =>
    cases he
    have : ∀ d, (VMem.d { m with vec := fun u => if u = w then { m.vec w with less := d } else m.vec u } v) = m.d v := by
      intro d; simp only [VMem.d]; split
      · next e => subst e; rfl
      · rfl
    rw [this]; exact hsame
  | setCmpEqual w f =>
    cases he
    have : ∀ d, (VMem.d { m with vec := fun u => if u = w then { m.vec w with eq := d } else m.vec u } v) = m.d v := by
      intro d; simp only [VMem.d]; split
      · next e => subst e; rfl
      · rfl
    rw [this]; exact hsame
  | push w xs => cases he; exact hpush
  | pop w => simp only [exec] at he; injection he with he; exact hrem' he
  | remove w i => simp only [exec] at he; injection he with he; exact hrem' he
  | set w i x =>
    simp only [exec] at he
    split at he <;> cases he
    · exact hsame
    · exact hset fun e => by subst e; exact hsame
  | clear w => cases he; exact hset fun e => by subst e; exact hshort (Nat.zero_le _)
  | cut w i j =>
    cases he
    unfold cut; split
    · exact hsame
    · exact hset fun e => by subst e; exact moves_sub hlt _ _
  | splitOff w i =>
    cases he
    have hd : ((splitOff E g m w i).d v) = ((cut E g (m.new (.same w) (.same w)) w i ((m.new (.same w) (.same w)).len w)).1.d v) := by
      have hne : v ≠ m.nv := Nat.ne_of_lt hv
      unfold splitOff push; dsimp only
      split <;> simp [VMem.setD, VMem.d, hne]
    rw [hd]
    have hdv := new_d m (.same w) (.same w) hv
    unfold cut; split
    · rw [hdv]; exact hsame
    · by_cases e : v = w
      · subst e
        rw [setD_d, hdv]
        exact moves_sub (by simp only [VMem.new, Mem.alloc]; omega) _ _
      · have : ∀ q, ((m.new (.same w) (.same w)).setD w q).d v = (m.new (.same w) (.same w)).d v := by
          intro q; simp [VMem.setD, VMem.d, e]
        rw [this, hdv]; exact hsame
  | swap w i j =>
    simp only [exec, swap] at he
    split at he <;> cases he
    · exact hsame
    · exact hset fun e => by subst e; exact hsame
  | compareAndRemove w i x =>
    simp only [exec, compareAndRemove] at he
    split at he
    · cases he; exact hsame
    · split at he
      · cases he
      · split at he
        · injection he with he; exact hrem' he
        · cases he; exact hsame
  | grow w n =>
    simp only [exec] at he; split at he <;> cases he
    exact hset fun e => (hg e).elim
  | clip w => cases he; exact hset fun e => by subst e; exact ⟨fun _ => h1, fun _ => rfl⟩
  | clone w =>
    cases he
    have hne : v ≠ m.nv := Nat.ne_of_lt hv
    have hd : (push E g (m.new (.same w) (.same w)) m.nv (m.mem.read (m.d w))).d v = (m.new (.same w) (.same w)).d v := by
      unfold push; dsimp only
      split <;> simp [VMem.setD, VMem.d, hne]
    rw [hd, new_d m _ _ hv]; exact hsame
  | compact w =>
    simp only [exec] at he
    split at he
    · cases he; exact hsame
    · split at he
      · cases he
      · cases he; exact hcomp _
  | compactFunc w eq => cases he; exact hcomp _
  | delete w i j =>
    simp only [exec] at he; split at he <;> cases he
    exact hset fun e => by subst e; exact moves_delete hwf hlt _ _
  | insert w i xs =>
    simp only [exec] at he; split at he <;> cases he
    exact hset fun e => by subst e; exact moves_insert hwf hlt _ _
  | replace w i j xs =>
    simp only [exec] at he; split at he <;> cases he
    exact hset fun e => by subst e; exact moves_replace hwf hlt _ _ _
  | reverse w => cases he; exact hset fun e => by subst e; exact hsame
  | sort => exact hsort he
  | sortFunc => exact hsort he
  | sortStable => exact hsort he
  | sortStableFunc => exact hsort he

/-- **C180**: `Grow(n)` leaves the vector in its array exactly when there is room for `n` more elements. -/
theorem C180_grow (hr : ARun E g P m) {v : Nat} (hv : v < m.nv) {n : Int} {m' : VMem T} {r : Res T}
    (he : exec E g P m (.grow v n) = some (m', r)) : (m'.slice v).a = (m.slice v).a ↔ (m.len v : Int) + n ≤ m.cap v := by
  obtain ⟨s, hrel⟩ := hr.rel
  obtain ⟨hwf, hown, hlt⟩ := hrel.wf v hv
  simp only [exec] at he; split at he <;> cases he
  show ((m.setD v _).d v).a = _ ↔ _
  rw [setD_d]
  refine (grow_moves (E := E) (g := g) (o := some v) hlt hwf n.toNat).trans ?_
  simp only [VMem.len, VMem.cap]; omega

/-! ## What the slice and the vector see of each other -/

/-- From `m` the program gets to `m'` by calls of methods and by writes through slices of vectors that satisfy `W`. -/
inductive Later (E : Elt T) (g : Nat → Nat) (P : SortImpl T) (W : Slice → Prop) (m : VMem T) : VMem T → Prop
  | refl : Later E g P W m m
  | call {m' op m'' r} : Later E g P W m m' → (∀ v, op.recv = some v → v < m'.nv) → exec E g P m' op = some (m'', r) →
      Later E g P W m m''
  | poke {m' v sl k x} : Later E g P W m m' → W sl → View m' v sl → sl.off + k < (m'.mem.arr sl.a).length →
      Later E g P W m (poke m' sl k x)

variable {W : Slice → Prop} {m' : VMem T}

theorem Later.arun (h : Later E g P W m m') (hr : ARun E g P m) : ARun E g P m' := by
  induction h with
  | refl => exact hr
  | call _ hok he ih => exact .call ih hok he
  | poke _ _ hv hk ih => exact .poke ih hv hk

theorem Later.nv (h : Later E g P W m m') : m.nv ≤ m'.nv := by
  induction h with
  | refl => exact Nat.le_refl _
  | call _ hok he ih => exact Nat.le_trans ih (exec_foot _ hok he).nv
  | poke _ _ _ _ ih => exact ih

theorem Later.view {v : Nat} {sl : Slice} (h : Later E g P W m m') (hvw : View m v sl) : View m' v sl := by
  induction h with
  | refl => exact hvw
  | call _ _ he ih => exact C54_views_stay ih _ he
  | poke _ _ _ _ ih => exact ih

/-- A slice of `v` that begins `i` elements behind the begin of `v` continues to do so, unless `v` has got another array. -/
theorem Later.place {v i : Nat} {sl : Slice} (h : Later E g P W m m') (hv : v < m.nv) (hvw : View m v sl)
    (ho : (m.d v).a = sl.a → sl.off = (m.d v).off + i) : (m'.d v).a = sl.a → sl.off = (m'.d v).off + i := by
  induction h with
  | refl => exact ho
  | call hl hok he ih =>
    intro e
    rcases (exec_foot _ hok he).place v (Nat.lt_of_lt_of_le hv hl.nv) with ⟨e1, e2⟩ | ⟨_, e1⟩
    · rw [e2]; exact ih (e1 ▸ e)
    · have := (hl.view hvw).2; omega
  | poke _ _ _ _ ih => exact ih

/-- **C180**: once a vector has left the array of a slice it handed out, that slice belongs to the caller alone: no call of any
method of any vector, and no write through a slice of another array, changes it, and the vector does not come back. -/
theorem C180_frozen (hr : ARun E g P m) {v : Nat} (hv : v < m.nv) {sl : Slice} (hvw : View m v sl) (hd : (m.slice v).a ≠ sl.a)
    (h : Later E g P (fun t => t.a ≠ sl.a) m m') : m'.mem.read sl = m.mem.read sl ∧ (m'.slice v).a ≠ sl.a := by
  suffices h' : m'.mem.arr sl.a = m.mem.arr sl.a ∧ (m'.d v).a ≠ sl.a from ⟨by simp only [Mem.read, h'.1], h'.2⟩
  induction h with
  | refl => exact ⟨rfl, hd⟩
  | @call m₁ op m₂ r hl hok he ih =>
    have hf := exec_foot op hok he
    obtain ⟨s, hrel⟩ := (hl.arun hr).rel
    have hvw' := hl.view hvw
    refine ⟨?_, ?_⟩
    · rw [hf.frame _ hvw'.2 ?_, ih.1]
      intro u hu e
      by_cases huv : u = v
      · subst huv; exact ih.2 e.symm
      · have := (hrel.wf u (hok u hu)).2.1
        rw [← e, hvw'.1] at this
        injection this with this
        exact huv this.symm
    · rcases hf.place v (Nat.lt_of_lt_of_le hv hl.nv) with ⟨e1, _⟩ | ⟨_, e1⟩
      · rw [e1]; exact ih.2
      · have := hvw'.2; omega
  | poke hl hw _ _ ih =>
    refine ⟨?_, ih.2⟩
    rw [← ih.1]
    exact write_other _ _ _ _ (Ne.symm hw)

/-- **C180**: calls of methods of other vectors never change a slice handed out by `v`. -/
theorem C180_others (hr : ARun E g P m) {v : Nat} {sl : Slice} (hvw : View m v sl) {op : Mut T} (hne : op.recv ≠ some v)
    (hok : ∀ v, op.recv = some v → v < m.nv) {r : Res T} (he : exec E g P m op = some (m', r)) :
    m'.mem.read sl = m.mem.read sl := by
  obtain ⟨s, hrel⟩ := hr.rel
  have : m'.mem.arr sl.a = m.mem.arr sl.a := by
    refine (exec_foot op hok he).frame _ hvw.2 ?_
    intro u hu e
    have := (hrel.wf u (hok u hu)).2.1
    rw [← e, hvw.1] at this
    injection this with this
    exact hne (by rw [hu, this])
  simp only [Mem.read, this]

/-- **C180**: what a slice taken by `SliceCut(i, j)` and the vector see of each other at any later time, whatever calls and
writes through slices were made meanwhile.  While the vector is in the same array, element `k` of the slice is element `i + k`
of the vector as far as both have one, and a write through the slice is a write to the vector.  Once the vector is in another
array, writes through the slice do not reach it. -/
theorem C180_sliceCut (hr : ARun E g P m) {v : Nat} (hv : v < m.nv) {i j : Int} {sl : Slice} (hs : m.sliceCut v i j = some sl)
    (h : Later E g P (fun _ => True) m m') :
    ((m'.slice v).a = sl.a →
      (∀ k, k < sl.len → i.toNat + k < m'.len v → (m'.mem.read sl)[k]? = (m'.list v)[i.toNat + k]?) ∧
      (∀ k x, k < sl.len → (poke m' sl k x).list v = (m'.list v).set (i.toNat + k) x)) ∧
    ((m'.slice v).a ≠ sl.a → ∀ k x, (poke m' sl k x).list v = m'.list v) := by
  have hvw := (C54_views hr hv).2.1 i j sl hs
  have hp : sl.off = (m.d v).off + i.toNat := by
    unfold VMem.sliceCut at hs
    split at hs
    · cases hs
    · cases hs; rfl
  have hpl := h.place (i := i.toNat) hv hvw (fun _ => hp)
  obtain ⟨s, hrel⟩ := (h.arun hr).rel
  refine ⟨fun ha => ?_, fun ha k x => ?_⟩
  · have ha : (m'.d v).a = sl.a := ha
    have ho := hpl ha
    refine ⟨?_, ?_⟩
    · intro k hk hi
      have hi : i.toNat + k < (m'.d v).len := hi
      rw [VMem.list, read_get, read_get, if_pos hk, if_pos hi, ha, ho, Nat.add_assoc]
    · intro k x hk
      have hwf := (hrel.wf v (Nat.lt_of_lt_of_le hv h.nv)).1
      have hlen := read_length hwf
      have h1 := hwf.len; have h2 := hwf.cap
      rw [ha] at h2
      apply List.ext_getElem?
      intro n
      show ((m'.mem.write sl.a (sl.off + k) [x]).read (m'.d v))[n]? = _
      rw [List.getElem?_set, VMem.list, read_get, read_get, hlen, ha]
      by_cases hn : n < (m'.d v).len
      · simp only [hn, if_true]
        by_cases hin : i.toNat + k < (m'.d v).len
        · rw [write_get _ _ _ _ (by omega)]
          by_cases e : i.toNat + k = n
          · subst e
            rw [if_neg (by omega), if_pos (by simp; omega), if_pos rfl, if_pos hin]
            have : (m'.d v).off + (i.toNat + k) - (sl.off + k) = 0 := by omega
            rw [this]; rfl
          · rw [if_neg e]
            split
            · rfl
            · rw [if_neg (by simp; omega)]
        · rw [if_neg (by omega)]
          simp only [Mem.write, if_true, List.append_assoc]
          rw [List.getElem?_append_left (by simp; omega), List.getElem?_take, if_pos (by omega)]
      · simp only [hn, if_false]
        split <;> simp_all
  · show (m'.mem.write sl.a (sl.off + k) [x]).read (m'.d v) = _
    have : (m'.mem.write sl.a (sl.off + k) [x]).arr (m'.d v).a = m'.mem.arr (m'.d v).a := write_other _ _ _ _ ha
    simp only [Mem.read, this, VMem.list]

/-- **C180** for `Slice()`: it is the slice of all elements. -/
theorem C180_slice (hr : ARun E g P m) {v : Nat} (hv : v < m.nv) (h : Later E g P (fun _ => True) m m') :
    ((m'.slice v).a = (m.slice v).a →
      (∀ k, k < m.len v → k < m'.len v → (m'.mem.read (m.slice v))[k]? = (m'.list v)[k]?) ∧
      (∀ k x, k < m.len v → (poke m' (m.slice v) k x).list v = (m'.list v).set k x)) ∧
    ((m'.slice v).a ≠ (m.slice v).a → ∀ k x, (poke m' (m.slice v) k x).list v = m'.list v) := by
  have hs : m.sliceCut v 0 (m.len v) = some (m.slice v) := by
    unfold VMem.sliceCut; rw [if_neg (by omega)]; rfl
  have := C180_sliceCut hr hv hs h
  simp only [Int.toNat_zero, Nat.zero_add] at this
  exact this

/-! ## Examples -/

/-- The program pushes 1, 2, 3 into vector 0 (there is room for one more), takes `s := Slice()`, does `ops`, then `s[0] = 9`;
the elements of the vector, and those of `s`. -/
def afterWrite (ops : List (Mut Int)) : Option (List Int × List Int) := do
  let r ← play (fun _ => 1) (mergeImpl Int) .empty [.new none none, .push 0 [1, 2, 3]]
  let sl := r.1.slice 0
  let r' ← play (fun _ => 1) (mergeImpl Int) r.1 ops
  let m := poke r'.1 sl 0 9
  some (m.list 0, m.mem.read sl)

/-- Pushing one element leaves the vector where it is: the write is seen.  So is a `Sort` in the slice. -/
example : afterWrite [.push 0 [4]] = some ([9, 2, 3, 4], [9, 2, 3]) := by decide +kernel
example : afterWrite [.reverse 0] = some ([9, 2, 1], [9, 2, 1]) := by decide +kernel
/-- `Remove` moves the elements in the slice too; its last one remains. -/
example : afterWrite [.remove 0 0] = some ([9, 3], [9, 3, 3]) := by decide +kernel
/-- Pushing two gives the vector a new array: neither the write nor the `Reverse` is seen on the other side. -/
example : afterWrite [.push 0 [4, 5], .reverse 0] = some ([5, 4, 3, 2, 1], [9, 2, 3]) := by decide +kernel
end Verif.Vec
