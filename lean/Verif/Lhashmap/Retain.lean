import Verif.Lhashmap.Props
import Verif.Dllist.Retain
/-!
# What a linked hash map keeps from being collected (C179)

Reachability over the pointers of the package: the table (lhashmap.go:7), the list (lhashmap.go:8),
its elements (`Dllist/Retain.lean`) and the entries (lhashmap.go:11-14).  A Go map is taken to keep
the keys and values that are in it and no others; what keys and values refer to is not counted.
-/
namespace Verif.Lhashmap
open Verif.Lhashmap.Spec
open Verif.Dllist (Mem Ptr Any)
variable {A K V : Type} [DecidableEq K]

/-- An element of the list that a client with the map keeps from being collected: it is reached from
the list (lhashmap.go:8) or from an element in the table (lhashmap.go:7). -/
def KeepsElem (s : LH K V) (e : Nat) : Prop :=
  Dllist.Keeps s.mem (.root s.l) (.node e) ∨ ∃ p ∈ s.m, Dllist.Keeps s.mem (.node p.2) (.node e)

/-- An entry, key and value, that a client with the map keeps from being collected. -/
def KeepsEntry (s : LH K V) (k : K) (v : V) : Prop :=
  ∃ e a, KeepsElem s e ∧ s.mem.val e = some a ∧ s.ents a = some (k, v)

/-- A key in the table. -/
def KeepsKey (s : LH K V) (k : K) : Prop := ∃ p ∈ s.m, p.1 = k

theorem move_any {m m' : Mem Nat} (h : Any m) {l e : Nat} (hm : Dllist.moveToFront m l e = some m') : Any m' :=
  h.exec (op := .moveToFront l e) (fuel := 0) (r := .unit) (by simp [Dllist.exec, hm])

omit [DecidableEq K] in
theorem rangeLoop_mem (f : A → K → V → A × Bool) : ∀ (fuel : Nat) (s : LH K V) (a : A) (p : Option Ptr) {s' : LH K V} {a' : A},
    rangeLoop (plain f) fuel s a p = some (s', a') → s' = s := by
  intro fuel
  induction fuel with
  | zero => intro s a p s' a' h; simp [rangeLoop] at h
  | succ n ih =>
    intro s a p s' a' h
    match p with
    | none => simp only [rangeLoop, Option.some.injEq, Prod.mk.injEq] at h; exact h.1.symm
    | some (.root _) => simp [rangeLoop] at h
    | some (.node e) =>
      simp only [rangeLoop, plain, Option.bind_eq_bind] at h
      cases he : s.entry e with
      | none => simp [he] at h
      | some x =>
        obtain ⟨_, k, v⟩ := x
        simp only [he, Option.bind_some] at h
        split at h
        · exact ih _ _ _ h
        · simp only [Option.some.injEq, Prod.mk.injEq] at h; exact h.1.symm

theorem exec_any {s s' : LH K V} (h : Any s.mem) {op : Op A K V} {fuel : Nat} {r : Res A V} (he : exec fuel s op = some (s', r)) : Any s'.mem := by
  cases op with
  | len => simp only [exec, Option.some.injEq, Prod.mk.injEq] at he; rw [← he.1]; exact h
  | clear => simp only [exec, Option.some.injEq, Prod.mk.injEq] at he; rw [← he.1]; exact h.clear _
  | load k =>
    simp only [exec, load] at he
    cases hg : aget s.m k with
    | none => simp [hg] at he; rw [← he.1]; exact h
    | some e =>
      cases hm : Dllist.moveToFront s.mem s.l e with
      | none => simp [hg, hm] at he
      | some m' =>
        cases hx : LH.entry { s with mem := m' } e with
        | none => simp [hg, hm, hx] at he
        | some x => simp [hg, hm, hx] at he; rw [← he.1]; exact move_any h hm
  | store k v =>
    simp only [exec, store] at he
    cases hg : aget s.m k with
    | none =>
      cases hm : Dllist.pushFront s.mem s.l s.fresh with
      | none => simp [hg, hm] at he
      | some x => simp [hg, hm] at he; rw [← he.1]; exact h.pushFront (l := s.l) (v := s.fresh) (n := x.2) hm
    | some e =>
      cases hx : s.entry e with
      | none => simp [hg, hx] at he
      | some x =>
        cases hm : Dllist.moveToFront s.mem s.l e with
        | none => simp [hg, hx, hm] at he
        | some m' => simp [hg, hx, hm] at he; rw [← he.1]; exact move_any h hm
  | remove k =>
    simp only [exec, remove] at he
    cases hg : aget s.m k with
    | none => simp [hg] at he; rw [← he.1]; exact h
    | some e =>
      cases hm : Dllist.lRemove s.mem s.l e with
      | none => simp [hg, hm] at he
      | some x =>
        simp [hg, hm] at he; rw [← he.1]
        exact h.exec (op := .remove s.l e) (fuel := 0) (r := .val x.2) (by simp [Dllist.exec, hm])
  | range f a =>
    simp only [exec, range] at he
    cases hr : rangeLoop (plain f) fuel { s with mem := (Dllist.front s.mem s.l).1 } a (Dllist.front s.mem s.l).2 with
    | none => simp [hr] at he
    | some x =>
      simp [hr] at he; rw [← he.1, rangeLoop_mem f _ _ _ _ hr]
      exact h.front s.l

theorem MRun.any {h : List (Op A K V)} {s : LH K V} (hr : MRun h s) : Any s.mem := by
  induction hr with
  | nil => exact Any.start.new
  | snoc _ hs ih =>
    obtain ⟨F, hs⟩ := hs
    exact exec_any ih (hs F (Nat.le_refl _))

theorem keepsElem_iff {s : LH K V} {S : Nat → List Nat} {ys : List (Item K V)} (hI : Inv s S ys) (ha : Any s.mem) (e : Nat) :
    KeepsElem s e ↔ ∃ y ∈ ys, y.e = e := by
  have hd : ∀ n, Dllist.dom s.l (S s.l) (.node n) ↔ ∃ y ∈ ys, y.e = n := fun n => by
    rw [hI.seq]; simp [Dllist.dom]
  have root := (hI.rep.keeps ha.sound (l := s.l) (p := .root s.l) (q := .node e) (.inl rfl))
  rw [hd] at root
  constructor
  · rintro (hk | ⟨p, hp, hk⟩)
    · exact root.1 hk
    · obtain ⟨y, hy, _, h2⟩ := hI.mem p.1 p.2 ((mem_iff_aget hI.wf).1 hp)
      rw [← hd]
      exact (hI.rep.keeps ha.sound ((hd p.2).2 ⟨y, hy, h2⟩)).1 hk
  · exact fun h => .inl (root.2 h)

/-- C179: after any calls, a linked hash map keeps a key with a value just when that value is the
one last stored for the key and not removed or cleared since: nothing is kept of what was
overwritten, removed or cleared. -/
theorem C179_entries {h : List (Op A K V)} {s : LH K V} (hr : MRun h s) (k : K) (v : V) :
    KeepsEntry s k v ↔ current k h = some v := by
  obtain ⟨S, ys, hI, he⟩ := run_inv hr
  obtain ⟨i1, i2, _⟩ := recent_spec h
  rw [← i1, ← mem_iff_aget i2, ← he]
  constructor
  · rintro ⟨e, a, hk, hv, hx⟩
    obtain ⟨y, hy, rfl⟩ := (keepsElem_iff hI hr.any e).1 hk
    rw [hI.val y hy] at hv; cases hv
    rw [hI.ent y hy] at hx
    exact List.mem_map.2 ⟨y, hy, by simpa [Item.kv] using hx⟩
  · intro hm
    obtain ⟨y, hy, e⟩ := List.mem_map.1 hm
    simp only [Item.kv, Prod.mk.injEq] at e
    obtain ⟨rfl, rfl⟩ := e
    exact ⟨y.e, y.a, (keepsElem_iff hI hr.any y.e).2 ⟨y, hy, rfl⟩, hI.val y hy, hI.ent y hy⟩

/-- C179: the table has just the keys that have a value. -/
theorem C179_keys {h : List (Op A K V)} {s : LH K V} (hr : MRun h s) (k : K) : KeepsKey s k ↔ current k h ≠ none := by
  obtain ⟨S, ys, hI, he⟩ := run_inv hr
  obtain ⟨i1, i2, _⟩ := recent_spec h
  rw [← i1]
  constructor
  · rintro ⟨p, hp, rfl⟩
    obtain ⟨y, hy, h1, _⟩ := hI.mem p.1 p.2 ((mem_iff_aget hI.wf).1 hp)
    have : (p.1, y.v) ∈ h.foldl recent [] := by
      rw [← he]; exact List.mem_map.2 ⟨y, hy, by simp [Item.kv, h1]⟩
    rw [(mem_iff_aget i2).1 this]; simp
  · intro hn
    obtain ⟨v, hv⟩ := Option.ne_none_iff_exists'.1 hn
    have := (mem_iff_aget i2).2 hv
    rw [← he] at this
    obtain ⟨y, hy, e⟩ := List.mem_map.1 this
    simp only [Item.kv, Prod.mk.injEq] at e
    exact ⟨(y.k, y.e), (mem_iff_aget hI.wf).2 (hI.get y hy), e.1⟩

/-- C179: it keeps as many elements as `Len` says. -/
theorem C179_elems {h : List (Op A K V)} {s : LH K V} (hr : MRun h s) :
    ∃ es : List Nat, es.Nodup ∧ (∀ e, e ∈ es ↔ KeepsElem s e) ∧ MStep s (.len : Op A K V) (.int es.length) s := by
  obtain ⟨S, ys, hI, he⟩ := run_inv hr
  refine ⟨ys.map Item.e, ?_, fun e => ?_, 0, fun _ _ => ?_⟩
  · have := hI.rep.nodup s.l; rwa [hI.seq] at this
  · rw [keepsElem_iff hI hr.any]; simp
  · simp [exec, len, hI.length]

/-- Two keys stored, one overwritten, one removed. -/
example : ∃ s : LH Nat Nat, MRun ([.store 1 10, .store 2 20, .store 1 11, .remove 2] : List (Op Unit Nat Nat)) s ∧
    KeepsEntry s 1 11 ∧ ¬ KeepsEntry s 1 10 ∧ ¬ KeepsEntry s 2 20 ∧ KeepsKey s 1 ∧ ¬ KeepsKey s 2 := by
  have step : ∀ {h : List (Op Unit Nat Nat)} {s : LH Nat Nat} (op : Op Unit Nat Nat), MRun h s → ∃ s', MRun (h ++ [op]) s' := by
    intro h s op hr
    obtain ⟨r, s', h1, _⟩ := lhashmap_step hr op
    exact ⟨s', hr.snoc h1⟩
  obtain ⟨s1, h1⟩ := step (.store 1 10) .nil
  obtain ⟨s2, h2⟩ := step (.store 2 20) h1
  obtain ⟨s3, h3⟩ := step (.store 1 11) h2
  obtain ⟨s4, h4⟩ := step (.remove 2) h3
  refine ⟨s4, h4, (C179_entries h4 1 11).2 rfl, fun hc => ?_, fun hc => ?_, (C179_keys h4 1).2 (by decide), fun hc => ?_⟩
  · exact absurd ((C179_entries h4 1 10).1 hc) (by decide)
  · exact absurd ((C179_entries h4 2 20).1 hc) (by decide)
  · exact absurd rfl ((C179_keys h4 2).1 hc)

end Verif.Lhashmap
