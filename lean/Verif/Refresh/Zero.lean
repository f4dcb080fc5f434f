import Verif.Lib.Pan
import Mathlib.Order.Basic
/-!
# A `RefreshData` that was not made by `NewRefreshData` (C164)

`var r RefreshData[T, A]` has the nil pointers `data` and `err`, `maxAge` and `errAge` 0. One goroutine calls its methods; panics are recovered. The lock is left out:
it is free between calls. The same lines in `refreshcache0` and `refreshcache1`, without arguments and with one.
-/
namespace Verif.Refresh.Zero
variable {T E : Type}

/-- `RefreshData`: refreshcache.go:64-72; how often the clock was read; the values under `OldValKey` in the calls of functions of the user, the last one at the end. -/
structure Mem (T E : Type) where
  err : Option (Option E)
  data : Option T
  last : Int
  maxAge : Int
  lastErr : Int
  errAge : Int
  tick : Nat
  log : List T

/-- The zero value. -/
def Mem.zero : Mem T E := ⟨none, none, 0, 0, 0, 0, 0, []⟩

variable [Inhabited T] (clock : Nat → Int)

/-- `time.Now().UnixNano()`. -/
def now : Pan (Mem T E) Int := ⟨fun s => ({ s with tick := s.tick + 1 }, some (clock s.tick))⟩

/-- `*r.data.Load()`: a panic if the pointer is nil. -/
def loadData : Pan (Mem T E) T := Pan.try_ fun s => s.data.map fun d => (s, d)

/-- `*r.err.Load()`. -/
def loadErr : Pan (Mem T E) (Option E) := Pan.try_ fun s => s.err.map fun e => (s, e)

/-- A call of a function of the user, with `old` under `OldValKey`; `none` is a panic. -/
def call {R : Type} (f : T → Option R) (old : T) : Pan (Mem T E) R := do
  Pan.change fun s => { s with log := s.log ++ [old] }
  match f old with
  | some r => pure r
  | none => Pan.raise

/-- The deferred function, with the results `data` and `err`: refreshcache.go:114-124 and 131-141. -/
def save (r : T × Option E) : Pan (Mem T E) Unit := do
  match r.2 with
  | none =>
    Pan.change fun s => { s with data := some r.1 }
    let t ← now clock
    Pan.change fun s => { s with last := t }
    Pan.change fun s => { s with lastErr := 0 }
  | some e =>
    Pan.change fun s => { s with err := some (some e) }
    let t ← now clock
    Pan.change fun s => { s with lastErr := t }
    Pan.change fun s => { s with last := 0 }

/-- `defer`: `save` runs with what `body` returns, and after a panic with the results as they are then, the zero value and nil. -/
def guard (body : Pan (Mem T E) (T × Option E)) : Pan (Mem T E) (T × Option E) := ⟨fun s =>
  match body.run s with
  | (s1, some r) => (((save clock r).run s1).1, some r)
  | (s1, none) => (((save clock (default, none)).run s1).1, none)⟩

/-- `(r.maxAge < 0 && last > 0) || (time.Now().UnixNano()-last < r.maxAge)`: refreshcache.go:99-100, 108, 180-181. -/
def fresh : Pan (Mem T E) Bool := do
  let s ← Pan.read id
  if s.maxAge < 0 ∧ s.last > 0 then pure true
  else
    let t ← now clock
    pure (decide (t - s.last < s.maxAge))

/-- `r.errAge > 0 && (time.Now().UnixNano()-r.lastErr < r.errAge)`: refreshcache.go:103, 111, 184. -/
def freshErr : Pan (Mem T E) Bool := do
  let s ← Pan.read id
  if s.errAge > 0 then
    let t ← now clock
    pure (decide (t - s.lastErr < s.errAge))
  else pure false

/-- The lines behind the lock: refreshcache.go:114-125, 131-142. -/
def doRefresh (f : T → Option (T × Option E)) : Pan (Mem T E) (T × Option E) := guard clock do
  let old ← loadData
  call f old

/-- `Get`: refreshcache.go:98-126. -/
def get (f : T → Option (T × Option E)) : Pan (Mem T E) (T × Option E) := do
  if ← fresh clock then
    let d ← loadData
    pure (d, none)
  else if ← freshErr clock then
    let e ← loadErr
    pure (default, e)
  else if ← fresh clock then
    let d ← loadData
    pure (d, none)
  else if ← freshErr clock then
    let e ← loadErr
    pure (default, e)
  else doRefresh clock f

/-- `Raw`: refreshcache.go:179-188. -/
def raw : Pan (Mem T E) (T × Option E) := do
  if ← fresh clock then
    let d ← loadData
    pure (d, none)
  else if ← freshErr clock then
    let e ← loadErr
    pure (default, e)
  else
    let d ← loadData
    let e ← loadErr
    pure (d, e)

/-- `Clear`: refreshcache.go:145-153. -/
def clear (f : Option (T → Option (Option E))) : Pan (Mem T E) (Option E) := do
  match f with
  | some f =>
    let d ← Pan.read fun s => s.data
    Pan.change fun s => { s with last := 0 }
    match d with
    | some d => call f d
    | none => Pan.raise
  | none =>
    Pan.change fun s => { s with last := 0 }
    pure none

inductive Op (T E : Type)
  | get (f : T → Option (T × Option E))
  | refresh (f : T → Option (T × Option E))
  | raw
  | clear (f : Option (T → Option (Option E)))

inductive Res (T E : Type)
  | pair (v : T) (e : Option E)
  | err (e : Option E)

def exec : Op T E → Pan (Mem T E) (Res T E)
  | .get f => do let (v, e) ← get clock f; pure (.pair v e)
  | .refresh f => do let (v, e) ← doRefresh clock f; pure (.pair v e)
  | .raw => do let (v, e) ← raw clock; pure (.pair v e)
  | .clear f => do let e ← clear f; pure (.err e)

/-- What one sees of a call: what functions of the user are called with, and the result (`none`: panic). -/
def play : List (Op T E) → Mem T E → List (List T × Option (Res T E))
  | [], _ => []
  | op :: ops, s =>
    let x := (exec clock op).run s
    (x.1.log.drop s.log.length, x.2) :: play ops x.1

/-! ## Specification -/

/-- `none`: no `Get` or `Refresh` yet. Then the newest value and, if a refresh failed, the newest error. -/
abbrev Seen (T E : Type) := Option (T × Option E)

def refreshed (σ : Seen T E) (f : T → Option (T × Option E)) : (List T × Option (Res T E)) × Seen T E :=
  match σ with
  | none => (([], none), some (default, none))
  | some (v, e) => match f v with
    | none => (([v], none), some (default, e))
    | some (w, none) => (([v], some (.pair w none)), some (w, e))
    | some (w, some x) => (([v], some (.pair w (some x))), some (v, some x))

def step (σ : Seen T E) : Op T E → (List T × Option (Res T E)) × Seen T E
  | .get f => refreshed σ f
  | .refresh f => refreshed σ f
  | .raw => match σ with
    | some (v, some e) => (([], some (.pair v (some e))), σ)
    | some (_, none) => (([], none), σ)
    | none => (([], none), σ)
  | .clear none => (([], some (.err none)), σ)
  | .clear (some g) => match σ with
    | some (v, _) => (([v], (g v).map .err), σ)
    | none => (([], none), σ)

def shows : List (Op T E) → Seen T E → List (List T × Option (Res T E))
  | [], _ => []
  | op :: ops, σ => (step σ op).1 :: shows ops (step σ op).2

/-! ## Proof -/

/-- `s` is a state that shows `σ`. -/
structure Sim (s : Mem T E) (σ : Seen T E) : Prop where
  age : s.maxAge = 0 ∧ s.errAge = 0
  data : s.data = σ.map (·.1)
  err : s.err = (σ.bind (·.2)).map some
  last : s.last ≤ 0 ∨ ∃ n < s.tick, s.last = clock n

variable {clock} {s : Mem T E} {σ : Seen T E} (hm : ∀ m n, m ≤ n → clock m ≤ clock n) (h0 : 0 ≤ clock 0)
include hm h0

omit [Inhabited T] in
theorem run_fresh (h : Sim clock s σ) : (fresh clock).run s = ({ s with tick := s.tick + 1 }, some false) := by
  have h1 : ¬ clock s.tick - s.last < s.maxAge := by
    rw [h.age.1]
    rcases h.last with h1 | ⟨n, hn, h1⟩
    · have := hm 0 s.tick (Nat.zero_le _); omega
    · have := hm n s.tick (Nat.le_of_lt hn); omega
  have h2 : ¬ (s.maxAge < 0 ∧ s.last > 0) := by rw [h.age.1]; omega
  simp only [fresh, Pan.run_bind, Pan.run_read, id, h2, if_false, now, h1, decide_false]; rfl

omit hm h0 [Inhabited T] in
theorem run_freshErr (h : Sim clock s σ) : (freshErr clock).run s = (s, some false) := by
  have h2 : ¬ s.errAge > 0 := by rw [h.age.2]; omega
  simp only [freshErr, Pan.run_bind, Pan.run_read, id, h2, if_false]; rfl

omit hm h0 [Inhabited T] in
theorem Sim.more (h : Sim clock s σ) : Sim clock { s with tick := s.tick + 1 } σ :=
  ⟨h.age, h.data, h.err, h.last.imp id fun ⟨n, hn, e⟩ => ⟨n, Nat.lt_succ_of_lt hn, e⟩⟩

omit hm h0 [Inhabited T] in
theorem Sim.ok (h : Sim clock s σ) (v : T) (e : Option E) (he : s.err = e.map some) : Sim clock ((save clock (v, none)).run s).1 (some (v, e)) :=
  ⟨h.age, rfl, he, .inr ⟨s.tick, Nat.lt_succ_self _, rfl⟩⟩

omit hm h0 [Inhabited T] in
theorem Sim.failed (h : Sim clock s σ) (v : T) (hv : s.data = some v) (w : T) (x : E) : Sim clock ((save clock (w, some x)).run s).1 (some (v, some x)) :=
  ⟨h.age, hv, rfl, .inl (Int.le_refl 0)⟩

omit hm h0 in
/-- One refresh. -/
theorem run_refresh (h : Sim clock s σ) (f : T → Option (T × Option E)) : ∃ s', Sim clock s' (refreshed σ f).2 ∧
    (do let (v, e) ← doRefresh clock f; pure (.pair v e) : Pan (Mem T E) (Res T E)).run s = (s', (refreshed σ f).1.2) ∧ s'.log = s.log ++ (refreshed σ f).1.1 := by
  rcases σ with _ | ⟨v, e⟩
  · have hd : s.data = none := h.data
    have h1 : (doRefresh clock f).run s = (((save clock (default, none)).run s).1, none) := by
      simp only [doRefresh, guard, Pan.run_bind, loadData, Pan.try_, hd, Option.map_none]
    refine ⟨_, h.ok default none h.err, by rw [Pan.run_bind, h1]; rfl, ?_⟩
    exact (List.append_nil _).symm
  · have hd : s.data = some v := h.data
    have he : s.err = e.map some := h.err
    have hl : (loadData : Pan (Mem T E) T).run s = (s, some v) := by simp only [loadData, Pan.try_, hd, Option.map_some]
    let s1 : Mem T E := { s with log := s.log ++ [v] }
    have hs1 : Sim clock s1 (some (v, e)) := ⟨h.age, h.data, h.err, h.last⟩
    rcases hf : f v with _ | ⟨w, _ | x⟩
    · have h1 : (doRefresh clock f).run s = (((save clock (default, none)).run s1).1, none) := by
        simp only [doRefresh, guard, Pan.run_bind, hl, call, Pan.run_change, hf]; rfl
      simp only [refreshed, hf]
      exact ⟨_, hs1.ok default e he, by rw [Pan.run_bind, h1], rfl⟩
    · have h1 : (doRefresh clock f).run s = (((save clock (w, none)).run s1).1, some (w, none)) := by
        simp only [doRefresh, guard, Pan.run_bind, hl, call, Pan.run_change, hf]; rfl
      simp only [refreshed, hf]
      exact ⟨_, hs1.ok w e he, by rw [Pan.run_bind, h1]; rfl, rfl⟩
    · have h1 : (doRefresh clock f).run s = (((save clock (w, some x)).run s1).1, some (w, some x)) := by
        simp only [doRefresh, guard, Pan.run_bind, hl, call, Pan.run_change, hf]; rfl
      simp only [refreshed, hf]
      exact ⟨_, hs1.failed v hd w x, by rw [Pan.run_bind, h1]; rfl, rfl⟩

theorem run_get (h : Sim clock s σ) (f : T → Option (T × Option E)) : (get clock f).run s = (doRefresh clock f).run { s with tick := s.tick + 1 + 1 } := by
  have h1 := h.more
  have e1 := run_freshErr h1
  have e2 := run_fresh hm h0 h1
  have e3 := run_freshErr h1.more
  simp only [get, Pan.run_bind, run_fresh hm h0 h, Bool.false_eq_true, if_false, e1, e2, e3]

theorem run_raw (h : Sim clock s σ) : (raw clock).run s =
    (do let d ← loadData; let e ← loadErr; pure (d, e) : Pan (Mem T E) (T × Option E)).run { s with tick := s.tick + 1 } := by
  have e1 := run_freshErr h.more
  simp only [raw, Pan.run_bind, run_fresh hm h0 h, Bool.false_eq_true, if_false, e1]

theorem run_step (h : Sim clock s σ) (op : Op T E) : ∃ s', Sim clock s' (step σ op).2 ∧ (exec clock op).run s = (s', (step σ op).1.2) ∧ s'.log = s.log ++ (step σ op).1.1 := by
  cases op with
  | get f =>
    obtain ⟨s', h1, h2, h3⟩ := run_refresh h.more.more f
    refine ⟨s', h1, ?_, h3⟩
    rw [← show _ = (s', (step σ (.get f)).1.2) from h2]
    simp only [exec, Pan.run_bind, run_get hm h0 h f]
  | refresh f => exact run_refresh h f
  | raw =>
    simp only [exec, Pan.run_bind, run_raw hm h0 h, loadData, loadErr, Pan.try_]
    rcases σ with _ | ⟨v, _ | e⟩
    · have hd : s.data = none := h.data
      exact ⟨_, h.more, by simp only [hd, Option.map_none]; rfl, (List.append_nil _).symm⟩
    · have hd : s.data = some v := h.data
      have he : s.err = none := h.err
      exact ⟨_, h.more, by simp only [hd, he, Option.map_none, Option.map_some]; rfl, (List.append_nil _).symm⟩
    · have hd : s.data = some v := h.data
      have he : s.err = some (some e) := h.err
      exact ⟨_, h.more, by simp only [hd, he, Option.map_some]; rfl, (List.append_nil _).symm⟩
  | clear f =>
    have hs : Sim clock { s with last := 0 } σ := ⟨h.age, h.data, h.err, .inl (Int.le_refl 0)⟩
    cases f with
    | none => exact ⟨_, hs, rfl, (List.append_nil _).symm⟩
    | some g =>
      rcases σ with _ | ⟨v, e⟩
      · have hd : s.data = none := h.data
        refine ⟨_, hs, ?_, (List.append_nil _).symm⟩
        simp only [exec, clear, Pan.run_bind, Pan.run_read, Pan.run_change, hd]; rfl
      · have hd : s.data = some v := h.data
        refine ⟨{ s with last := 0, log := s.log ++ [v] }, ⟨h.age, h.data, h.err, .inl (Int.le_refl 0)⟩, ?_, rfl⟩
        simp only [exec, clear, Pan.run_bind, Pan.run_read, Pan.run_change, hd, call, step]
        cases g v <;> rfl

theorem play_sim (h : Sim clock s σ) (ops : List (Op T E)) : play clock ops s = shows ops σ := by
  induction ops generalizing s σ with
  | nil => rfl
  | cons op ops ih =>
    obtain ⟨s', h1, h2, h3⟩ := run_step hm h0 h op
    simp only [play, shows, h2, h3, List.drop_left', ih h1]

/-- **C164**: with a clock that does not go back, the calls on a zero `RefreshData` show what the specification says: the first `Get` or `Refresh` panics without
calling the function, the later ones all call it, with the newest value; `Raw` panics until there was such a call and a refresh has failed; `Clear` with a function panics
before the first one. -/
theorem C164 (ops : List (Op T E)) : play clock ops Mem.zero = shows ops none :=
  play_sim hm h0 ⟨⟨rfl, rfl⟩, rfl, rfl, .inl (Int.le_refl 0)⟩ ops

/-- `Raw` and a `Get` that panic, a `Get`, a refresh that fails, `Raw`, a function that panics, `Clear`. -/
example : shows [.raw, .get fun n => some (n + 7, none), .raw, .get fun n => some (n + 7, none), .refresh fun _ => some (9, some "no"), .raw, .get fun _ => none,
      .clear (some fun _ => some none), .clear none] (none : Seen Nat String) =
    [([], none), ([], none), ([], none), ([0], some (.pair 7 none)), ([7], some (.pair 9 (some "no"))), ([], some (.pair 7 (some "no"))), ([7], none),
      ([0], some (.err none)), ([], some (.err none))] := by rfl

end Verif.Refresh.Zero
