import Verif.RWMap.Quiet
import Verif.RWMap.Props
/-!
# The Go maps inside `RWMap` (C107)

In `Verif.RWMap.Model` the fields `read.m` and `dirty` hold the contents of maps.  In Go they are references, and promotion makes `read` refer to the
map `dirty` referred to.  Here the maps are objects on a heap; next to every step of the model goes what the code does with the references.
-/
namespace Verif.RWMap
variable {K V : Type} [DecidableEq K] [Inhabited V]
variable {eqv : V → V → Option Bool} {prog : Nat → Op K V} {h : List (Ev K V)} {s s' : State K V} {g : Ghost K V} {i : Nat}
  {ord : List (K × Nat) → List (K × Nat)} {go : Bool}

/-- References to maps, and the maps. Reference 0 is the nil map. -/
structure Refs (K : Type) where
  /-- `m.read.Load().m`: rwmap.go:79-82 -/
  read : Nat
  /-- `m.dirty`: rwmap.go:61; `none` is nil -/
  dirty : Option Nat
  /-- the local variable `read.m` of each call -/
  loc : Nat → Nat
  /-- the contents of the maps -/
  heap : Nat → List (K × Nat)
  /-- the references that have been in `m.read` -/
  pub : Nat → Prop
  /-- next free reference -/
  fresh : Nat

/-- The zero `RWMap`. -/
def Refs.init : Refs K := { read := 0, dirty := none, loc := fun _ => 0, heap := fun _ => [], pub := fun x => x = 0, fresh := 1 }

/-- What the next step of call `i` does to the map `m.dirty` refers to, if it writes to it: `delete(m.dirty, key)` rwmap.go:295,
`m.dirty[key] = newEntry(value)` 239, 384, `clear(m.dirty)` 524, `m.dirty[key] = e` 226, 366, `m.dirty[k] = e` 561. -/
def mwrite (prog : Nat → Op K V) (s : State K V) (i : Nat) : Option (List (K × Nat) → List (K × Nat)) :=
  match s.pc i with
  | .crit => match prog i with
    | .loadAndDelete k => if aget s.sh.read.m k = none ∧ s.sh.read.amended = true then some (adel · k) else none
    | .swap k _ | .loadOrStore k _ =>
      if aget s.sh.read.m k = none ∧ aget (s.sh.dirty.getD []) k = none ∧ s.sh.read.amended = true then some (aput · k s.sh.fresh) else none
    | .clear => if s.sh.read.m ≠ [] ∨ s.sh.read.amended = true then none else some fun _ => []
    | _ => none
  | .unexp e => if s.sh.ent e = .exp then (prog i).key?.map fun k m => aput m k e else none
  | .copy ((k, e) :: _) _ => match s.sh.ent e with
    | .val _ => some (aput · k e)
    | _ => none
  | .amend _ => (prog i).key?.map fun k m => aput m k s.sh.fresh
  | .wipe => some fun _ => []
  | _ => none

/-- The call is a `Range`. -/
def Op.isRange : Op K V → Bool
  | .range => true
  | _ => false

/-- The heap after a write to `m.dirty`; `delete` and `clear` do nothing to a nil map. -/
def Refs.write (r : Refs K) (f : Option (List (K × Nat) → List (K × Nat))) : Nat → List (K × Nat) :=
  match f, r.dirty with
  | some f, some d => fun x => if x = d then f (r.heap d) else r.heap x
  | _, _ => r.heap

/-- What a step of call `i` does to the references: `read := m.loadReadOnly()` at the first step and with the lock held,
`m.dirty = make(…)` rwmap.go:558, `m.read.Store(&readOnly[K, V]{m: read.m, amended: true})` 237, 382,
`m.read.Store(&readOnly[K, V]{m: m.dirty}); m.dirty = nil` 488-491, 547-548, `m.read.Store(&readOnly[K, V]{})` 521. -/
def Refs.next (prog : Nat → Op K V) (s : State K V) (i : Nat) (r : Refs K) : Refs K :=
  let r1 := { r with heap := r.write (mwrite prog s i) }
  match s.pc i with
  | .start | .crit => { r1 with loc := fun j => if j = i then r.read else r.loc j }
  | .copy0 _ => match r.dirty with
    | some _ => r1
    | none => { r1 with dirty := some r.fresh, heap := fun x => if x = r.fresh then [] else r.heap x, fresh := r.fresh + 1 }
  | .amend _ => { r1 with read := r.loc i, pub := fun x => r.pub x ∨ x = r.loc i }
  | .promo _ =>
    let d := r.dirty.getD 0
    { r1 with read := d, dirty := none, pub := fun x => r.pub x ∨ x = d
              loc := fun j => if j = i ∧ (prog i).isRange = true then d else r.loc j }
  | .wipe => { r1 with read := 0, pub := fun x => r.pub x ∨ x = 0 }
  | _ => r1

/-- Executions with the references. -/
inductive MExec (eqv : V → V → Option Bool) (prog : Nat → Op K V) : List (Ev K V) → State K V → Refs K → Prop
  | init : MExec eqv prog [] State.init Refs.init
  | step {h s r i ord go s'} : MExec eqv prog h s r → (∀ l, (ord l).Perm l) → next eqv prog ord go s i = some s' →
      MExec eqv prog (h ++ event prog s i) s' (r.next prog s i)

theorem MExec.exec {r : Refs K} (hx : MExec eqv prog h s r) : Exec eqv prog h s := by
  induction hx with
  | init => exact .init
  | step _ ho hn ih => exact ih.step ⟨_, _, _, ho, hn, rfl⟩

/-- Every execution is one with references. -/
theorem Exec.refs (hx : Exec eqv prog h s) : ∃ r, MExec eqv prog h s r := by
  induction hx with
  | init => exact ⟨_, .init⟩
  | step _ hs ih =>
    obtain ⟨r, ih⟩ := ih
    obtain ⟨i, ord, go, ho, hn, rfl⟩ := hs
    exact ⟨_, ih.step ho hn⟩

theorem miss_dirty (h : Sh K) (nx : Nx K V) : (missLocked h nx).1.dirty = h.dirty := by
  simp only [missLocked]; split <;> rfl

theorem after_dirty (h : Sh K) (op : Op K V) (lk : Lk) (r : Res K V) : (after h op lk r).1.dirty = h.dirty := by
  cases lk <;> simp [after, miss_dirty]

/-- The contents of `dirty` after a step. -/
theorem next_dirty (I : Inv eqv prog s g) (hn : next eqv prog ord go s i = some s') :
    s'.sh.dirty = match s.pc i with
      | .copy0 _ => some (s.sh.dirty.getD [])
      | .promo _ => none
      | _ => match mwrite prog s i with
        | some f => s.sh.dirty.map f
        | none => s.sh.dirty := by
  have hO := I.ops i
  simp only [next] at hn
  cases hc : s.pc i with
  | crit =>
    simp only [hc, Option.some.injEq] at hn; subst hn
    simp only [goto_sh, mwrite, hc]
    have hamd : s.sh.read.amended = true → s.sh.dirty ≠ none := I.str.core.amd
    cases hop : prog i with
    | loadAndDelete k =>
      simp only [critStep]
      cases hr : aget s.sh.read.m k with
      | some e => simp
      | none => by_cases ha : s.sh.read.amended = true <;> simp [ha] <;> split <;> simp [miss_dirty]
    | swap k v =>
      simp only [critStep]
      cases hr : aget s.sh.read.m k with
      | some e => simp
      | none =>
        cases hd : aget (s.sh.dirty.getD []) k with
        | some e => simp
        | none =>
          by_cases ha : s.sh.read.amended = true
          · cases hdd : s.sh.dirty with
            | none => exact absurd hdd (hamd ha)
            | some d => simp [ha, putNew, hdd]
          · simp [ha]
    | loadOrStore k v =>
      simp only [critStep]
      cases hr : aget s.sh.read.m k with
      | some e => simp
      | none =>
        cases hd : aget (s.sh.dirty.getD []) k with
        | some e => simp
        | none =>
          by_cases ha : s.sh.read.amended = true
          · cases hdd : s.sh.dirty with
            | none => exact absurd hdd (hamd ha)
            | some d => simp [ha, putNew, hdd]
          · simp [ha]
    | clear => simp only [critStep]; split <;> rfl
    | _ => simp only [critStep] <;> (repeat' split) <;> first | rfl | exact miss_dirty _ _
  | ent e lk =>
    simp only [hc, Option.some.injEq] at hn; subst hn
    simp only [goto_sh, mwrite, hc, entStep]
    repeat' split
    all_goals first | rfl | exact after_dirty _ _ _ _
  | cas e lk p =>
    simp only [hc, Option.some.injEq] at hn; subst hn
    simp only [goto_sh, mwrite, hc, casStep]
    repeat' split
    all_goals first | rfl | exact after_dirty _ _ _ _
  | unexp e =>
    simp only [hc, Option.some.injEq] at hn; subst hn
    simp only [OpOk, hc] at hO
    obtain ⟨hadd, k, hk, hr⟩ := hO
    simp only [goto_sh, mwrite, hc, hk, unexpStep]
    by_cases he : s.sh.ent e = .exp
    · simp only [he, if_true, Option.map_some]
      cases hop : prog i <;> rw [hop] at hadd hk <;> first | (cases hadd; done) | skip
      all_goals
        cases hk
        cases hd : s.sh.dirty with
        | none => exact absurd he (I.str.core.nod hd _ _ hr)
        | some d => rfl
    · simp [he]
  | swp e => simp only [hc, Option.some.injEq] at hn; subst hn; simp only [goto_sh, mwrite, hc, swpStep]; split <;> rfl
  | copy0 rm =>
    simp only [hc] at hn
    cases hd : s.sh.dirty with
    | none => simp only [hd, Option.isSome_none, Bool.false_eq_true, if_false, Option.some.injEq] at hn; subst hn; rfl
    | some d => simp only [hd, Option.isSome_some, if_true, Option.some.injEq] at hn; subst hn; simp [hd]
  | copy es rm =>
    cases es with
    | nil => simp only [hc, Option.some.injEq] at hn; subst hn; simp [mwrite, hc]
    | cons x es =>
      obtain ⟨k, e⟩ := x
      simp only [hc] at hn
      cases he : s.sh.ent e <;> simp only [he, Option.some.injEq] at hn <;> subst hn <;> simp [mwrite, hc, he, dirtyPut]
  | amend rm =>
    simp only [OpOk, hc] at hO
    obtain ⟨⟨k, _, hk, hrm, _⟩, hd⟩ := hO
    simp only [hc, hk, Option.some.injEq] at hn
    subst hn
    cases hdd : s.sh.dirty with
    | none => exact absurd hdd hd
    | some d => simp [mwrite, hc, hk, putNew, hdd]
  | promo nx => simp only [hc, Option.some.injEq] at hn; subst hn; rfl
  | wipe => simp only [hc, Option.some.injEq] at hn; subst hn; simp [mwrite, hc]
  | _ =>
    simp only [hc] at hn
    simp only [mwrite, hc]
    repeat' split at hn
    all_goals first
      | cases hn; done
      | contradiction
      | (simp only [Option.some.injEq] at hn; subst hn; rfl)

/-- What a call's local `read.m` contains, if it still needs it; a Range call has visited some of it. -/
def LocOk (m : List (K × Nat)) : PC K V → Prop
  | .copy0 rm | .copy _ rm | .expunge _ rm | .amend rm => m = rm
  | .unl (.rng x) => m = x
  | .rng es _ => ∃ dn, (dn ++ es).Perm m
  | _ => True

theorem finish_loc (m : List (K × Nat)) (op : Op K V) (r : Res K V) : LocOk m (finish op r) := by
  unfold finish; split <;> trivial

theorem miss_loc (m : List (K × Nat)) (h : Sh K) {nx : Nx K V} (hnx : ∀ x, nx ≠ .rng x) : LocOk m (missLocked h nx).2 := by
  simp only [missLocked]
  split
  · cases nx with
    | rng x => exact absurd rfl (hnx x)
    | _ => trivial
  · trivial

theorem after_loc (m : List (K × Nat)) (h : Sh K) (op : Op K V) (lk : Lk) (r : Res K V) : LocOk m (after h op lk r).2 := by
  cases lk with
  | u => exact finish_loc _ _ _
  | l => trivial
  | lm => exact miss_loc _ _ nofun

theorem putNew_loc (m : List (K × Nat)) (h : Sh K) (i : Nat) (k : K) (r : Res K V) : LocOk m (putNew h i k r).2 := by
  unfold putNew; split <;> trivial

/-- How a call goes on with its local `read.m`. -/
theorem next_loc (I : Inv eqv prog s g) (ho : ∀ l, (ord l).Perm l) (hn : next eqv prog ord go s i = some s') :
    match s.pc i with
    | .start | .crit => LocOk s.sh.read.m (s'.pc i)
    | .promo nx => ∀ m, (prog i = .range → m = s.sh.dirty.getD []) → LocOk m (s'.pc i)
    | _ => ∀ m, LocOk m (s.pc i) → LocOk m (s'.pc i) := by
  have hO := I.ops i
  simp only [next] at hn
  cases hc : s.pc i with
  | start =>
    simp only [hc, Option.some.injEq] at hn; subst hn
    simp only [goto_pc_self]
    cases hop : prog i <;> simp only [startStep] <;> (repeat' split) <;> first | trivial | exact ⟨[], ho _⟩
  | crit =>
    simp only [hc, Option.some.injEq] at hn; subst hn
    simp only [goto_pc_self]
    cases hop : prog i <;> simp only [critStep] <;> (repeat' split) <;>
      first | trivial | rfl | exact miss_loc _ _ nofun | exact putNew_loc _ _ _ _ _
  | ent e lk =>
    simp only [hc, Option.some.injEq] at hn; subst hn
    simp only [goto_pc_self]
    intro m _
    cases hop : prog i <;> simp only [entStep] <;> (repeat' split) <;> first | trivial | exact after_loc _ _ _ _ _
  | cas e lk p =>
    simp only [hc, Option.some.injEq] at hn; subst hn
    simp only [goto_pc_self]
    intro m _
    cases hop : prog i <;> simp only [casStep] <;> (repeat' split) <;> first | trivial | exact after_loc _ _ _ _ _
  | unexp e =>
    simp only [hc, Option.some.injEq] at hn; subst hn
    simp only [goto_pc_self]
    intro m _
    cases hop : prog i <;> simp only [unexpStep] <;> (repeat' split) <;> trivial
  | swp e =>
    simp only [hc, Option.some.injEq] at hn; subst hn
    simp only [goto_pc_self]
    intro m _
    simp only [swpStep]; split <;> trivial
  | promo nx =>
    simp only [hc, Option.some.injEq] at hn; subst hn
    simp only [goto_pc_self]
    intro m hm
    cases nx with
    | rng x =>
      simp only [OpOk, hc] at hO
      obtain ⟨_, ⟨h1, _⟩, h2⟩ := hO
      show m = x
      rw [hm h1, h2 x rfl]; rfl
    | _ => trivial
  | unl nx =>
    intro m hm
    cases nx with
    | rng x =>
      simp only [hc, Option.some.injEq] at hn; subst hn
      simp only [goto_pc_self]
      exact ⟨[], by rw [show m = x from hm]; exact ho x⟩
    | ent e => simp only [hc, Option.some.injEq] at hn; subst hn; simp only [goto_pc_self]; trivial
    | res r => simp only [hc, Option.some.injEq] at hn; subst hn; simp only [goto_pc_self]; exact finish_loc _ _ _
  | rng es acc =>
    intro m hm
    cases es with
    | nil => simp only [hc, Option.some.injEq] at hn; subst hn; simp only [goto_pc_self]; trivial
    | cons x es =>
      obtain ⟨dn, hp⟩ : ∃ dn, (dn ++ x :: es).Perm m := hm
      simp only [hc] at hn
      repeat' split at hn
      all_goals simp only [Option.some.injEq] at hn; subst hn; simp only [goto_pc_self]
      all_goals first | trivial | exact ⟨dn ++ [x], by simpa using hp⟩
  | amend rm =>
    intro m hm
    simp only [hc] at hn
    split at hn <;> simp only [Option.some.injEq] at hn <;> subst hn <;> simp only [goto_pc_self]
    · trivial
    · exact putNew_loc _ _ _ _ _
  | copy0 rm | copy es rm | expunge es rm =>
    intro m hm
    simp only [hc] at hn
    repeat' split at hn
    all_goals first
      | cases hn; done
      | contradiction
      | (simp only [Option.some.injEq] at hn; subst hn; simp only [goto_pc_self]; simp_all [LocOk]; done)
  | _ =>
    intro m hm
    simp only [hc] at hn
    repeat' split at hn
    all_goals first
      | cases hn; done
      | contradiction
      | (simp only [Option.some.injEq] at hn; subst hn; simp only [goto_pc_self]; trivial)

/-- The contents in the model are those of the maps; published maps are not the one that is written to. -/
structure MapInv (s : State K V) (r : Refs K) : Prop where
  rd : r.heap r.read = s.sh.read.m
  dy : s.sh.dirty = r.dirty.map r.heap
  nil : r.heap 0 = []
  rpub : r.pub r.read
  lpub : ∀ j, r.pub (r.loc j)
  zpub : r.pub 0
  dnp : ∀ d, r.dirty = some d → ¬ r.pub d ∧ d < r.fresh
  lt : ∀ x, r.pub x → x < r.fresh
  pc : ∀ j, LocOk (r.heap (r.loc j)) (s.pc j)

theorem MapInv.init : MapInv (State.init : State K V) Refs.init :=
  ⟨rfl, rfl, rfl, rfl, fun _ => rfl, rfl, nofun, fun x hx => by cases hx; exact Nat.one_pos, fun _ => trivial⟩

/-- Writes leave the published maps alone. -/
theorem MapInv.write_pub {r : Refs K} (M : MapInv s r) (f : Option (List (K × Nat) → List (K × Nat))) {x : Nat} (hx : r.pub x) :
    r.write f x = r.heap x := by
  cases f with
  | none => simp [Refs.write]
  | some f =>
    cases hd : r.dirty with
    | none => simp [Refs.write, hd]
    | some d =>
      have : x ≠ d := fun h => (M.dnp d hd).1 (h ▸ hx)
      simp [Refs.write, hd, this]

/-- A step leaves the published maps alone. -/
theorem MapInv.frozen {r : Refs K} (M : MapInv s r) {x : Nat} (hx : r.pub x) : (r.next prog s i).heap x = r.heap x ∧ (r.next prog s i).pub x := by
  have hw := M.write_pub (mwrite prog s i) hx
  unfold Refs.next
  cases hc : s.pc i with
  | copy0 rm =>
    simp only
    cases hd : r.dirty with
    | some d => exact ⟨hw, hx⟩
    | none =>
      have : x ≠ r.fresh := fun h => absurd (M.lt x hx) (by omega)
      exact ⟨by simp [this], hx⟩
  | amend rm => exact ⟨hw, .inl hx⟩
  | promo nx => exact ⟨hw, .inl hx⟩
  | wipe => exact ⟨hw, .inl hx⟩
  | _ => exact ⟨hw, hx⟩

theorem MapInv.dirty_write {r : Refs K} (M : MapInv s r) (f : Option (List (K × Nat) → List (K × Nat))) :
    (match f with | some f => s.sh.dirty.map f | none => s.sh.dirty) = r.dirty.map (r.write f) := by
  rw [M.dy]
  cases f with
  | none => cases hd : r.dirty <;> simp [Refs.write]
  | some f => cases hd : r.dirty <;> simp [Refs.write, hd]

theorem MapInv.step {r : Refs K} (M : MapInv s r) (I : Inv eqv prog s g) (ho : ∀ l, (ord l).Perm l) (hn : next eqv prog ord go s i = some s') :
    MapInv s' (r.next prog s i) := by
  have hoth : ∀ j, j ≠ i → (r.next prog s i).loc j = r.loc j → LocOk ((r.next prog s i).heap ((r.next prog s i).loc j)) (s'.pc j) := by
    intro j hj hl
    rw [hl, next_other hn hj, (M.frozen (M.lpub j)).1]
    exact M.pc j
  have hzero := M.frozen (prog := prog) (i := i) M.zpub
  have hread := next_read I hn
  have hdirty := next_dirty I hn
  have hloc := next_loc I ho hn
  have hO := I.ops i
  have hfz : ∀ x, r.pub x → (r.next prog s i).heap x = r.heap x := fun x hx => (M.frozen hx).1
  have plain : r.next prog s i = { r with heap := r.write (mwrite prog s i) } → s'.sh.read = s.sh.read →
      s'.sh.dirty = (match mwrite prog s i with | some f => s.sh.dirty.map f | none => s.sh.dirty) →
      (∀ m, LocOk m (s.pc i) → LocOk m (s'.pc i)) → MapInv s' (r.next prog s i) := by
    intro hr h1 h2 h3
    have hw := fun x (hx : r.pub x) => M.write_pub (mwrite prog s i) hx
    rw [hr] at hoth ⊢
    refine ⟨?_, ?_, (hw 0 M.zpub).trans M.nil, M.rpub, M.lpub, M.zpub, M.dnp, M.lt, ?_⟩
    · rw [h1, ← M.rd]; exact hw _ M.rpub
    · rw [h2, M.dirty_write]
    · intro j
      by_cases hj : j = i
      · subst hj
        refine h3 _ ?_
        show LocOk (r.write (mwrite prog s j) (r.loc j)) _
        rw [hw _ (M.lpub j)]; exact M.pc j
      · exact hoth j hj rfl
  cases hc : s.pc i with
  | start =>
    rw [hc] at hread hdirty hloc
    have hr : r.next prog s i = { r with loc := fun j => if j = i then r.read else r.loc j } := by
      simp only [Refs.next, hc, mwrite, Refs.write]
    rw [hr] at hoth ⊢
    refine ⟨?_, ?_, M.nil, M.rpub, ?_, M.zpub, M.dnp, M.lt, ?_⟩
    · rcases hread with h | ⟨_, h, _⟩ | ⟨_, h, _⟩ | ⟨h, _⟩
      · rw [h]; exact M.rd
      all_goals cases h
    · rw [hdirty, ← M.dy]; simp [mwrite, hc]
    · intro j
      by_cases hj : j = i
      · simp [hj, M.rpub]
      · simp [hj, M.lpub j]
    · intro j
      by_cases hj : j = i
      · subst hj; simp only [if_true]; rw [M.rd]; exact hloc
      · exact hoth j hj (by simp [hj])
  | crit =>
    rw [hc] at hread hdirty hloc
    have hw := fun x (hx : r.pub x) => M.write_pub (mwrite prog s i) hx
    have hr : r.next prog s i = { r with heap := r.write (mwrite prog s i), loc := fun j => if j = i then r.read else r.loc j } := by
      simp only [Refs.next, hc]
    rw [hr] at hoth ⊢
    refine ⟨?_, ?_, (hw 0 M.zpub).trans M.nil, M.rpub, ?_, M.zpub, M.dnp, M.lt, ?_⟩
    · rcases hread with h | ⟨_, h, _⟩ | ⟨_, h, _⟩ | ⟨h, _⟩
      · rw [h, ← M.rd]; exact hw _ M.rpub
      all_goals cases h
    · rw [hdirty]; exact M.dirty_write _
    · intro j
      by_cases hj : j = i
      · simp [hj, M.rpub]
      · simp [hj, M.lpub j]
    · intro j
      by_cases hj : j = i
      · subst hj; simp only [if_true]; rw [hw _ M.rpub, M.rd]; exact hloc
      · exact hoth j hj (by simp [hj])
  | copy0 rm =>
    rw [hc] at hread hdirty hloc
    have hrd : s'.sh.read = s.sh.read := by
      rcases hread with h | ⟨_, h, _⟩ | ⟨_, h, _⟩ | ⟨h, _⟩
      · exact h
      all_goals cases h
    cases hd : r.dirty with
    | some d =>
      have hsd : s.sh.dirty = some (r.heap d) := by rw [M.dy, hd]; rfl
      refine plain (by simp only [Refs.next, hc, hd]) hrd ?_ (by rw [hc]; exact hloc)
      rw [hdirty]; simp [mwrite, hc, hsd]
    | none =>
      have hsd : s.sh.dirty = none := by rw [M.dy, hd]; rfl
      have hr : r.next prog s i = { r with dirty := some r.fresh, heap := fun x => if x = r.fresh then [] else r.heap x, fresh := r.fresh + 1 } := by
        simp only [Refs.next, hc, hd]
      rw [hr] at hoth hfz hzero ⊢
      refine ⟨?_, ?_, hzero.1.trans M.nil, M.rpub, M.lpub, M.zpub, ?_, ?_, ?_⟩
      · rw [hrd, ← M.rd]; exact hfz _ M.rpub
      · rw [hdirty, hsd]; simp
      · intro d he
        simp only [Option.some.injEq] at he
        subst he
        exact ⟨fun hp => absurd (M.lt _ hp) (by omega), by simp⟩
      · intro x hx
        have := M.lt x hx
        simp only; omega
      · intro j
        by_cases hj : j = i
        · subst hj
          have h1 := hfz _ (M.lpub j)
          simp only at h1 ⊢
          rw [h1]
          refine hloc _ ?_
          have := M.pc j
          rwa [hc] at this
        · exact hoth j hj rfl
  | amend rm =>
    rw [hc] at hread hdirty hloc
    have hw := fun x (hx : r.pub x) => M.write_pub (mwrite prog s i) hx
    have hr : r.next prog s i = { r with heap := r.write (mwrite prog s i), read := r.loc i, pub := fun x => r.pub x ∨ x = r.loc i } := by
      simp only [Refs.next, hc]
    have hold := M.pc i
    rw [hc] at hold
    have hrm : rm = s.sh.read.m := by
      simp only [OpOk, hc] at hO
      obtain ⟨⟨_, _, _, h, _⟩, _⟩ := hO
      exact h
    have hpp : ∀ x, (r.pub x ∨ x = r.loc i) → r.pub x := fun x hx => hx.elim id (fun h => h ▸ M.lpub i)
    have hrd' : s'.sh.read.m = s.sh.read.m := by
      rcases hread with h | ⟨_, _, h⟩ | ⟨_, h, _⟩ | ⟨h, _⟩
      · rw [h]
      · rw [h]
      all_goals cases h
    rw [hr] at hoth ⊢
    refine ⟨?_, ?_, (hw 0 M.zpub).trans M.nil, .inr rfl, fun j => .inl (M.lpub j), .inl M.zpub, ?_, fun x hx => M.lt x (hpp x hx), ?_⟩
    · show r.write (mwrite prog s i) (r.loc i) = _
      rw [hw _ (M.lpub i), hrd', ← hrm]; exact hold
    · rw [hdirty]; exact M.dirty_write _
    · intro d hd
      exact ⟨fun h => (M.dnp d hd).1 (hpp d h), (M.dnp d hd).2⟩
    · intro j
      by_cases hj : j = i
      · subst hj
        show LocOk (r.write (mwrite prog s j) (r.loc j)) _
        rw [hw _ (M.lpub j)]
        exact hloc _ hold
      · exact hoth j hj rfl
  | promo nx =>
    rw [hc] at hread hdirty hloc
    have hrd : s'.sh.read = ⟨s.sh.dirty.getD [], false⟩ := by
      simp only [next, hc, Option.some.injEq] at hn
      subst hn; rfl
    have hr : r.next prog s i = { r with read := r.dirty.getD 0, dirty := none, pub := (fun x => r.pub x ∨ x = r.dirty.getD 0), loc := (fun j => if j = i ∧ (prog i).isRange = true then r.dirty.getD 0 else r.loc j) } := by
      simp only [Refs.next, hc, mwrite, Refs.write]
    have hdh : r.heap (r.dirty.getD 0) = s.sh.dirty.getD [] := by
      rw [M.dy]
      cases r.dirty with
      | none => exact M.nil
      | some d => rfl
    rw [hr] at hoth ⊢
    refine ⟨?_, ?_, M.nil, .inr rfl, ?_, .inl M.zpub, nofun, ?_, ?_⟩
    · rw [hrd]; exact hdh
    · rw [hdirty]; rfl
    · intro j
      by_cases hj : j = i ∧ (prog i).isRange = true
      · exact .inr (by simp [hj])
      · left; simp only [hj, if_false]; exact M.lpub j
    · rintro x (hx | hx)
      · exact M.lt x hx
      · subst hx
        cases hd : r.dirty with
        | none => exact M.lt 0 M.zpub
        | some d => exact (M.dnp d hd).2
    · intro j
      by_cases hj : j = i
      · subst hj
        refine hloc _ ?_
        intro hop
        simp only [hop, Op.isRange, and_self, if_true]
        exact hdh
      · exact hoth j hj (by simp [hj])
  | wipe =>
    rw [hc] at hread hdirty hloc
    have hw := fun x (hx : r.pub x) => M.write_pub (mwrite prog s i) hx
    have hrd : s'.sh.read = ⟨[], false⟩ := by
      simp only [next, hc, Option.some.injEq] at hn
      subst hn; rfl
    have hr : r.next prog s i = { r with heap := r.write (mwrite prog s i), read := 0, pub := fun x => r.pub x ∨ x = 0 } := by
      simp only [Refs.next, hc]
    have hpp : ∀ x, (r.pub x ∨ x = 0) → r.pub x := fun x hx => hx.elim id (fun h => h ▸ M.zpub)
    rw [hr] at hoth ⊢
    refine ⟨?_, ?_, (hw 0 M.zpub).trans M.nil, .inr rfl, fun j => .inl (M.lpub j), .inl M.zpub, ?_, fun x hx => M.lt x (hpp x hx), ?_⟩
    · rw [hrd]; exact (hw 0 M.zpub).trans M.nil
    · rw [hdirty]; exact M.dirty_write _
    · intro d hd
      exact ⟨fun h => (M.dnp d hd).1 (hpp d h), (M.dnp d hd).2⟩
    · intro j
      by_cases hj : j = i
      · subst hj
        simp only [next, hc, Option.some.injEq] at hn
        subst hn
        simp only [goto_pc_self]; trivial
      · exact hoth j hj rfl
  | _ =>
    rw [hc] at hread hdirty hloc
    refine plain (by simp only [Refs.next, hc]) ?_ hdirty (by rw [hc]; exact hloc)
    rcases hread with h | ⟨_, h, _⟩ | ⟨_, h, _⟩ | ⟨h, _⟩
    · exact h
    all_goals cases h

theorem MExec.mi {r : Refs K} (hx : MExec eqv prog h s r) : MapInv s r := by
  induction hx with
  | init => exact MapInv.init
  | step hx ho hn ih =>
    obtain ⟨g, I, _⟩ := exec_inv hx.exec
    exact ih.step I ho hn

/-- Further steps. -/
inductive MSteps (eqv : V → V → Option Bool) (prog : Nat → Op K V) : State K V → Refs K → State K V → Refs K → Prop
  | refl {s r} : MSteps eqv prog s r s r
  | step {s r s' r' i ord go s''} : MSteps eqv prog s r s' r' → (∀ l, (ord l).Perm l) → next eqv prog ord go s' i = some s'' →
      MSteps eqv prog s r s'' (r'.next prog s' i)

theorem MSteps.exec {r r' : Refs K} (hs : MSteps eqv prog s r s' r') (hx : MExec eqv prog h s r) : ∃ h', MExec eqv prog (h ++ h') s' r' := by
  induction hs with
  | refl => exact ⟨[], by simpa using hx⟩
  | step _ ho hn ih =>
    obtain ⟨h', ih⟩ := ih
    exact ⟨h' ++ event prog _ _, by rw [← List.append_assoc]; exact ih.step ho hn⟩

/-- The maps the next step of call `i` reads: lookups in `read.m` and `m.dirty`, `len(m.dirty)` (rwmap.go:544), the loops of `dirtyLocked` (559)
and of `Range` (497). -/
def mreads (prog : Nat → Op K V) (s : State K V) (r : Refs K) (i : Nat) : List Nat :=
  match s.pc i with
  | .start => match prog i with
    | .len => []
    | _ => [r.read]
  | .crit => r.read :: r.dirty.toList
  | .ent _ .lm | .cas _ .lm _ => r.dirty.toList
  | .copy0 _ | .copy _ _ | .expunge _ _ => [r.read]
  | .rng _ _ => [r.loc i]
  | _ => []

/-- **C107**: the contents of `read.m` and `dirty` in the model are those of the maps the fields refer to. -/
theorem rwmap_map_contents {r : Refs K} (hx : MExec eqv prog h s r) : s.sh.read.m = r.heap r.read ∧ s.sh.dirty = r.dirty.map r.heap :=
  ⟨hx.mi.rd.symm, hx.mi.dy⟩

/-- **C107**: a call that writes to a map holds the mutex, and the map is not nil (unless by `delete` or `clear`) and has never been in `read`. -/
theorem rwmap_map_writes {r : Refs K} (hx : MExec eqv prog h s r) {f : List (K × Nat) → List (K × Nat)} (hw : mwrite prog s i = some f) :
    s.sh.mu = some i ∧ ((∃ d, r.dirty = some d ∧ ¬ r.pub d) ∨ r.dirty = none ∧ prog i = .clear) := by
  obtain ⟨g, I, _⟩ := exec_inv hx.exec
  have M := hx.mi
  have hl : (s.pc i).locked = true := by
    unfold mwrite at hw
    split at hw
    all_goals first | (cases hw; done) | (rename_i h; rw [h]; rfl)
  refine ⟨(I.str.mu i).1 hl, ?_⟩
  cases hd : r.dirty with
  | some d => exact .inl ⟨d, rfl, (M.dnp d hd).1⟩
  | none =>
    refine .inr ⟨rfl, ?_⟩
    have hsd : s.sh.dirty = none := by rw [M.dy, hd]; rfl
    have hna : s.sh.read.amended = false := by
      by_contra ha
      exact I.str.core.amd (by simpa using ha) hsd
    have hO := I.ops i
    unfold mwrite at hw
    cases hc : s.pc i <;> simp only [hc] at hw hO <;> first | (cases hw; done) | skip
    · split at hw <;> first | (cases hw; done) | (simp [hna] at hw; done) | assumption
    · simp only [OpOk, hc] at hO
      obtain ⟨_, k, _, hr⟩ := hO
      rw [if_neg (I.str.core.nod hsd _ _ hr)] at hw; cases hw
    · simp only [OpOk, hc] at hO
      exact absurd hsd hO.2.1
    · simp only [OpOk, hc] at hO
      exact absurd hsd hO.2
    · simp only [OpOk, hc] at hO
      exact hO

/-- **C107**: a call that does not hold the mutex only reads maps that have been in `read`. -/
theorem rwmap_map_reads {r : Refs K} (hx : MExec eqv prog h s r) {x : Nat} (hr : x ∈ mreads prog s r i) : s.sh.mu = some i ∨ r.pub x := by
  obtain ⟨g, I, _⟩ := exec_inv hx.exec
  have M := hx.mi
  by_cases hl : (s.pc i).locked = true
  · exact .inl ((I.str.mu i).1 hl)
  · right
    cases hc : s.pc i <;> rw [hc] at hl <;> simp only [mreads, hc] at hr
    case start =>
      split at hr
      · cases hr
      · simp only [List.mem_singleton] at hr; subst hr; exact M.rpub
    case rng => simp only [List.mem_singleton] at hr; subst hr; exact M.lpub i
    case ent e lk => cases lk <;> first | (cases hr; done) | exact absurd rfl hl
    case cas e lk p => cases lk <;> first | (cases hr; done) | exact absurd rfl hl
    all_goals first | (cases hr; done) | exact absurd rfl hl

/-- **C107**: a map that has been in `read` is never changed again. -/
theorem rwmap_map_frozen {r r' : Refs K} (hx : MExec eqv prog h s r) {x : Nat} (hp : r.pub x) (hs : MSteps eqv prog s r s' r') :
    r'.pub x ∧ r'.heap x = r.heap x := by
  induction hs with
  | refl => exact ⟨hp, rfl⟩
  | @step _ _ i _ _ _ hs ho hn ih =>
    obtain ⟨h', hx'⟩ := hs.exec hx
    have := hx'.mi.frozen (prog := prog) (i := i) ih.1
    exact ⟨this.2, this.1.trans ih.2⟩

/-- **C107**: what a Range call has yet to visit, and what it has visited, is the map its loop goes over. -/
theorem rwmap_map_range {r : Refs K} (hx : MExec eqv prog h s r) {es : List (K × Nat)} {acc : List (K × V)} (hc : s.pc i = .rng es acc) :
    ∃ dn, (dn ++ es).Perm (r.heap (r.loc i)) := by
  have := hx.mi.pc i
  rwa [hc] at this

/-- A schedule, with the references. -/
def msched (prog : Nat → Op Nat Nat) : List Nat → State Nat Nat → Refs Nat → Option (State Nat Nat × Refs Nat)
  | [], s, r => some (s, r)
  | i :: is, s, r => match next (fun a b => some (a == b)) prog id true s i with
    | some s' => msched prog is s' (r.next prog s i)
    | none => none

theorem msched_steps {prog : Nat → Op Nat Nat} : ∀ (is : List Nat) {s s1 s2 : State Nat Nat} {r r1 r2 : Refs Nat},
    MSteps (fun a b => some (a == b)) prog s r s1 r1 → msched prog is s1 r1 = some (s2, r2) → MSteps (fun a b => some (a == b)) prog s r s2 r2
  | [], _, _, _, _, _, _, h, he => by cases he; exact h
  | i :: is, _, s1, _, _, r1, _, h, he => by
    simp only [msched] at he
    split at he
    next s' hn => exact msched_steps is (h.step (fun _ => .refl _) hn) he
    next => cases he

theorem msched_exec {prog : Nat → Op Nat Nat} {is : List Nat} {s : State Nat Nat} {r : Refs Nat}
    (he : msched prog is State.init Refs.init = some (s, r)) : ∃ h, MExec (fun a b => some (a == b)) prog h s r := by
  obtain ⟨h', hx⟩ := (msched_steps is .refl he).exec .init
  exact ⟨_, hx⟩

/-- Range (5) has promoted the map 1, which contains the keys 7 and 8, and is going over it, when the removal of 7 (2) and a new key (7) come:
the latter makes `dirty` a new map. -/
example : ∃ h s r es acc, MExec (fun a b => some (a == b)) exProg h s r ∧ s.pc 5 = .rng es acc ∧ r.loc 5 = 1 ∧ r.heap 1 = [(7, 0), (8, 1)] ∧
    r.read = 1 ∧ r.dirty = some 2 ∧ r.heap 2 = [(8, 1), (9, 2)] := by
  obtain ⟨⟨s, r⟩, he⟩ : ∃ x, msched exProg (rep 10 0 ++ rep 7 3 ++ rep 6 5 ++ rep 6 2 ++ rep 13 7) State.init Refs.init = some x := ⟨_, rfl⟩
  obtain ⟨h, hx⟩ := msched_exec he
  cases he
  exact ⟨h, _, _, _, _, hx, rfl, rfl, rfl, rfl, rfl, rfl⟩

end Verif.RWMap
