import Verif.Lhashmap.Props
import Verif.Lib.Pan
/-!
# Linked hash maps with keys that cannot be hashed (C163)

With an interface as the type of keys, every access to the Go map with a key that cannot be hashed panics (see `GenMap/Hash.lean`). The accesses are interleaved with
changes of the list; a panic leaves both as they are at that moment.
-/
namespace Verif.Lhashmap.Hash
open Verif.Lhashmap.Spec
variable {A K V : Type} [DecidableEq K] (bad : K → Bool)

/-- `l.m[key]`. -/
def look (k : K) : Pan (LH K V) (Option Nat) := if bad k then Pan.raise else Pan.read fun s => aget s.m k

/-- `l.m[key] = element`. -/
def put (k : K) (e : Nat) : Pan (LH K V) Unit := if bad k then Pan.raise else Pan.change fun s => { s with m := aput s.m k e }

/-- `delete(l.m, key)`. -/
def del (k : K) : Pan (LH K V) Unit := if bad k then Pan.raise else Pan.change fun s => { s with m := adel s.m k }

/-- `l.l.MoveToFront(element)`. -/
def front (e : Nat) : Pan (LH K V) Unit := Pan.try_ fun s => (Dllist.moveToFront s.mem s.l e).map fun mem => ({ s with mem := mem }, ())

/-- `Load`: lhashmap.go:39-45. -/
def load (k : K) : Pan (LH K V) (Option V) := do
  match ← look bad k with
  | some e =>
    front e
    Pan.try_ fun s => (s.entry e).map fun x => (s, some x.2.2)
  | none => pure none

/-- `Store`: lhashmap.go:47-55. -/
def store (k : K) (v : V) : Pan (LH K V) Unit := do
  match ← look bad k with
  | some e =>
    Pan.try_ fun s => (s.entry e).map fun x => ({ s with ents := fun y => if y = x.1 then some (x.2.1, v) else s.ents y }, ())
    front e
  | none =>
    let e ← Pan.try_ fun s =>
      let a := s.fresh
      let s := { s with ents := fun x => if x = a then some (k, v) else s.ents x, fresh := a + 1 }
      (Dllist.pushFront s.mem s.l a).map fun x => ({ s with mem := x.1 }, x.2)
    put bad k e

/-- `Remove`: lhashmap.go:57-62. -/
def remove (k : K) : Pan (LH K V) Unit := do
  match ← look bad k with
  | some e =>
    Pan.try_ fun s => (Dllist.lRemove s.mem s.l e).map fun x => ({ s with mem := x.1 }, ())
    del bad k
  | none => pure ()

/-- One call. `Len`, `Range` and `Clear` do not access the Go map with a key. -/
def exec (fuel : Nat) : Op A K V → Pan (LH K V) (Res A V)
  | .load k => do let v ← load bad k; pure (.val v)
  | .store k v => do store bad k v; pure .unit
  | .remove k => do remove bad k; pure .unit
  | .len => Pan.try_ fun s => Lhashmap.exec fuel s (.len : Op A K V)
  | .range f a => Pan.try_ fun s => Lhashmap.exec fuel s (.range f a)
  | .clear => Pan.try_ fun s => Lhashmap.exec fuel s (.clear : Op A K V)

/-- The call comes to an end, with a result or a panic (`none`). -/
def MStep (s : LH K V) (op : Op A K V) (o : Option (Res A V)) (s' : LH K V) : Prop := ∃ F, ∀ fuel, F ≤ fuel → (exec bad fuel op).run s = (s', o)

/-- The calls `h` on a new map lead to `s`, panics recovered. -/
inductive MRun : List (Op A K V) → LH K V → Prop
  | nil : MRun [] new
  | snoc {h s op o s'} : MRun h s → MStep bad s op o s' → MRun (h ++ [op]) s'

/-- The key can be hashed, if there is one. -/
def fine : Op A K V → Bool
  | .load k | .store k _ | .remove k => !bad k
  | _ => true

variable {bad} {s s' : LH K V} {op : Op A K V} {h : List (Op A K V)}

omit [DecidableEq K] in
theorem fine_key (hf : fine bad op = false) : ∃ k, bad k = true ∧ (op = .load k ∨ (∃ v, op = .store k v) ∨ op = .remove k) := by
  cases op <;> simp only [fine, Bool.not_eq_false', reduceCtorEq] at hf
  · exact ⟨_, hf, .inl rfl⟩
  · exact ⟨_, hf, .inr (.inl ⟨_, rfl⟩)⟩
  · exact ⟨_, hf, .inr (.inr rfl)⟩

theorem run_look {k : K} : (look bad k).run s = (s, if bad k then none else some (aget s.m k)) := by
  unfold look; split <;> rfl

theorem step_bad (hf : fine bad op = false) (fuel : Nat) : (exec bad fuel op).run s = (s, none) := by
  obtain ⟨k, hk, rfl | ⟨v, rfl⟩ | rfl⟩ := fine_key hf <;>
    simp only [exec, load, store, remove, Pan.run_bind, run_look, hk, if_true]

theorem step_fine (hf : fine bad op = true) {fuel : Nat} {x : Res A V} (h : Lhashmap.exec fuel s op = some (s', x)) : (exec bad fuel op).run s = (s', some x) := by
  cases op with
  | load k =>
    have hk : bad k = false := by simpa [fine] using hf
    simp only [Lhashmap.exec, Lhashmap.load, Option.bind_eq_bind, Option.bind_eq_some_iff, Option.some.injEq, Prod.mk.injEq] at h
    obtain ⟨⟨s1, v⟩, h1, rfl, rfl⟩ := h
    simp only [exec, load, Pan.run_bind, run_look, hk, Bool.false_eq_true, if_false]
    cases e : aget s.m k with
    | none => rw [e] at h1; cases h1; rfl
    | some el =>
      rw [e] at h1
      simp only [Option.bind_eq_some_iff, Option.some.injEq, Prod.mk.injEq] at h1
      obtain ⟨mem, h2, ⟨a, k', v'⟩, h3, rfl, rfl⟩ := h1
      simp only [front, Pan.run_bind, Pan.try_, h2, Option.map_some, h3]; rfl
  | store k v =>
    have hk : bad k = false := by simpa [fine] using hf
    simp only [Lhashmap.exec, Lhashmap.store, Option.bind_eq_bind, Option.bind_eq_some_iff, Option.some.injEq, Prod.mk.injEq] at h
    obtain ⟨s1, h1, rfl, rfl⟩ := h
    simp only [exec, store, Pan.run_bind, run_look, hk, Bool.false_eq_true, if_false]
    cases e : aget s.m k with
    | none =>
      rw [e] at h1
      simp only [Option.bind_eq_some_iff, Option.some.injEq] at h1
      obtain ⟨⟨mem, el⟩, h2, rfl⟩ := h1
      simp only [Pan.run_bind, Pan.try_, h2, Option.map_some, put, hk, Bool.false_eq_true, if_false]; rfl
    | some el =>
      rw [e] at h1
      simp only [Option.bind_eq_some_iff, Option.some.injEq] at h1
      obtain ⟨⟨a, k', v'⟩, h2, mem, h3, rfl⟩ := h1
      simp only [front, Pan.run_bind, Pan.try_, h2, Option.map_some, h3]; rfl
  | remove k =>
    have hk : bad k = false := by simpa [fine] using hf
    simp only [Lhashmap.exec, Lhashmap.remove, Option.bind_eq_bind, Option.bind_eq_some_iff, Option.some.injEq, Prod.mk.injEq] at h
    obtain ⟨s1, h1, rfl, rfl⟩ := h
    simp only [exec, remove, Pan.run_bind, run_look, hk, Bool.false_eq_true, if_false]
    cases e : aget s.m k with
    | none => rw [e] at h1; cases h1; rfl
    | some el =>
      rw [e] at h1
      simp only [Option.bind_eq_some_iff, Option.some.injEq] at h1
      obtain ⟨⟨mem, b⟩, h2, rfl⟩ := h1
      simp only [Pan.run_bind, Pan.try_, h2, Option.map_some, del, hk, Bool.false_eq_true, if_false]; rfl
  | _ => simp only [exec, Pan.try_, h]

theorem MStep.det {o o' : Option (Res A V)} {s1 s2 : LH K V} (h1 : MStep bad s op o s1) (h2 : MStep bad s op o' s2) : o = o' ∧ s1 = s2 := by
  obtain ⟨F, h1⟩ := h1
  obtain ⟨F', h2⟩ := h2
  have := (h1 (max F F') (Nat.le_max_left ..)).symm.trans (h2 (max F F') (Nat.le_max_right ..))
  cases this
  exact ⟨rfl, rfl⟩

theorem of_plain (hf : fine bad op = true) {x : Res A V} (h : Lhashmap.MStep s op x s') : MStep bad s op (some x) s' :=
  let ⟨F, h⟩ := h
  ⟨F, fun n hn => step_fine hf (h n hn)⟩

/-- Without the calls that panic. -/
theorem run_plain (hr : MRun bad h s) : Lhashmap.MRun (h.filter (fine bad)) s := by
  induction hr with
  | nil => exact .nil
  | @snoc h s op o s' _ hs ih =>
    rw [List.filter_append]
    cases hf : fine bad op with
    | false =>
      have := hs.det ⟨0, fun n _ => step_bad hf n⟩
      simpa [hf, this.2] using ih
    | true =>
      obtain ⟨x, s1, h1, -⟩ := lhashmap_step ih op
      obtain ⟨-, rfl⟩ := hs.det (of_plain hf h1)
      simpa [hf] using ih.snoc h1

/-- **C163**: after any calls, the next one panics if its key cannot be hashed, and then nothing has changed; else it comes to an end and returns what it returns in the
program without the calls that panic (`Ok`, C37 and C38). -/
theorem C163_linked (hr : MRun bad h s) (op : Op A K V) :
    (fine bad op = false → ∀ o s', MStep bad s op o s' ↔ o = none ∧ s' = s) ∧
    (fine bad op = true → ∃ r s', Ok (h.filter (fine bad)) op r ∧ ∀ o s1, MStep bad s op o s1 ↔ o = some r ∧ s1 = s') := by
  refine ⟨fun hf o s' => ⟨fun hs => hs.det ⟨0, fun n _ => step_bad hf n⟩, ?_⟩, fun hf => ?_⟩
  · rintro ⟨rfl, rfl⟩
    exact ⟨0, fun n _ => step_bad hf n⟩
  · obtain ⟨x, s1, h1, h2⟩ := lhashmap_step (run_plain hr) op
    refine ⟨x, s1, h2, fun o s2 => ⟨fun hs => hs.det (of_plain hf h1), ?_⟩⟩
    rintro ⟨rfl, rfl⟩
    exact of_plain hf h1

/-- 9 cannot be hashed: storing, loading and removing it panic; `Range` sees the rest. -/
def exHash : List (Op (List (Nat × Nat)) Nat Nat) := [.store 1 10, .store 9 90, .store 2 20, .load 9, .load 1, .remove 9]

def exGo (fuel : Nat) : List (Op (List (Nat × Nat)) Nat Nat) → LH Nat Nat → List Bool × LH Nat Nat
  | [], s => ([], s)
  | op :: ops, s =>
    let x := (exec (fun k => k == 9) fuel op).run s
    let y := exGo fuel ops x.1
    (x.2.isSome :: y.1, y.2)

example : (exGo 9 exHash new).1 = [true, false, true, false, true, false] ∧
    ((exec (fun k => k == 9) 9 (.range (fun a k v => (a ++ [(k, v)], true)) [])).run (exGo 9 exHash new).2).2 = some (Res.vars [(1, 10), (2, 20)]) := ⟨by rfl, by rfl⟩

end Verif.Lhashmap.Hash
