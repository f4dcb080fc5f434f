import Verif.RWMap.Whole
import Mathlib.Data.List.Nodup
import Verif.RWMap.Panic
import Verif.RWMap.Ends
/-!
# Float keys (C147)

The key type of an `RWMap` is any comparable type (rwmap.go:36), floats included, where NaN is not equal to itself: looking up a NaN in a Go map
finds nothing, deleting it does nothing, and every assignment to it adds an entry, which `range` meets and `clear` removes.
`Verif.RWMap.Model` assumes an equality; here is the same machine over Go maps with such keys (`nan`: which keys they are).
Simplification: 0 and -0, which are equal, count as one key.
-/
namespace Verif.RWMap.Float
variable {K V : Type} [DecidableEq K] [Inhabited V] (nan : K → Bool)

/-! ## Go maps with NaNs -/

/-- `v, ok := m[k]`. -/
def nget (m : List (K × Nat)) (k : K) : Option Nat := if nan k then none else aget m k

/-- `m[k] = e`. -/
def nput (m : List (K × Nat)) (k : K) (e : Nat) : List (K × Nat) := if nan k then m ++ [(k, e)] else aput m k e

/-- `delete(m, k)`. -/
def ndel (m : List (K × Nat)) (k : K) : List (K × Nat) := if nan k then m else adel m k

/-! ## The machine

The same code as in `Model.lean`, with these lookups, assignments and deletions. -/

/-- See `putNew`: rwmap.go:108-112, 239-240, 384. -/
def nputNew (h : Sh K) (i : Nat) (k : K) (r : Res K V) : Sh K × PC K V :=
  match h.dirty with
  | none => (h, .panic)
  | some d =>
    ({ h with dirty := some (nput nan d k h.fresh), fresh := h.fresh + 1
              ent := fun x => if x = h.fresh then .val i else h.ent x }, .unl (.res r))

/-- See `startStep`: rwmap.go:125-127, 214-215, 287-289, 350-351, 394-399, 431-433, 479-480, 510-514, 530-532. -/
def nstartStep (ord : List (K × Nat) → List (K × Nat)) (h : Sh K) (op : Op K V) : PC K V :=
  match op with
  | .load k | .loadAndDelete k => match nget nan h.read.m k with
    | some e => .ent e .u
    | none => if h.read.amended then .acq else .fin (.opt none)
  | .compareAndSwap k _ _ | .compareAndDelete k _ => match nget nan h.read.m k with
    | some e => .ent e .u
    | none => if h.read.amended then .acq else .fin (.bool false)
  | .swap k _ | .loadOrStore k _ => match nget nan h.read.m k with
    | some e => .ent e .u
    | none => .acq
  | .clear => if h.read.m.length = 0 ∧ h.read.amended = false then .fin .unit else .acq
  | .range => if h.read.amended then .acq else .rng (ord h.read.m) []
  | .len => .fin (.int h.len)

/-- See `critStep`: rwmap.go:132-140, 223-239, 291-300, 361-385, 403-416, 435-447, 486-489, 519-526. -/
def ncritStep (h : Sh K) (i : Nat) (op : Op K V) : Sh K × PC K V :=
  let dirtyGet (k : K) : Option Nat := nget nan (h.dirty.getD []) k
  match op with
  | .load k => match nget nan h.read.m k with
    | some e => (h, .unl (.ent e))
    | none =>
      if h.read.amended then
        match dirtyGet k with
        | some e => missLocked h (.ent e)
        | none => missLocked h (.res (.opt none))
      else (h, .unl (.res (.opt none)))
  | .compareAndDelete k _ => match nget nan h.read.m k with
    | some e => (h, .unl (.ent e))
    | none =>
      if h.read.amended then
        match dirtyGet k with
        | some e => missLocked h (.ent e)
        | none => missLocked h (.res (.bool false))
      else (h, .unl (.res (.bool false)))
  | .loadAndDelete k => match nget nan h.read.m k with
    | some e => (h, .unl (.ent e))
    | none =>
      if h.read.amended then
        let h' := { h with dirty := h.dirty.map (ndel nan · k) }
        match dirtyGet k with
        | some e => missLocked h' (.ent e)
        | none => missLocked h' (.res (.opt none))
      else (h, .unl (.res (.opt none)))
  | .swap k _ => match nget nan h.read.m k with
    | some e => (h, .unexp e)
    | none => match dirtyGet k with
      | some e => (h, .swp e)
      | none => if h.read.amended then nputNew nan h i k (.opt none) else (h, .copy0 h.read.m)
  | .loadOrStore k v => match nget nan h.read.m k with
    | some e => (h, .unexp e)
    | none => match dirtyGet k with
      | some e => (h, .ent e .lm)
      | none => if h.read.amended then nputNew nan h i k (.los v false) else (h, .copy0 h.read.m)
  | .compareAndSwap k _ _ => match nget nan h.read.m k with
    | some e => (h, .ent e .l)
    | none => match dirtyGet k with
      | some e => (h, .ent e .lm)
      | none => (h, .unl (.res (.bool false)))
  | .clear =>
    if h.read.m.length > 0 ∨ h.read.amended = true then (h, .wipe)
    else ({ h with dirty := h.dirty.map (fun _ => []), misses := 0 }, .zero)
  | .range =>
    if h.read.amended then (h, .promo (.rng (h.dirty.getD []))) else (h, .unl (.rng h.read.m))
  | .len => (h, .panic)

/-- See `unexpStep`: rwmap.go:193-195, 225-227, 363-367. -/
def nunexpStep (h : Sh K) (op : Op K V) (e : Nat) : Sh K × PC K V :=
  let next : PC K V := match op with
    | .swap _ _ => .swp e
    | .loadOrStore _ _ => .ent e .l
    | _ => .panic
  if h.ent e = .exp then
    match op with
    | .swap k _ | .loadOrStore k _ => match h.dirty with
      | none => (h, .panic)
      | some d => ({ h.setEnt e .nil with dirty := some (nput nan d k e) }, next)
    | _ => (h, .panic)
  else (h, next)

/-- See `dirtyPut`. -/
def ndirtyPut (h : Sh K) (k : K) (e : Nat) : Sh K := { h with dirty := h.dirty.map (nput nan · k e) }

variable (eqv : V → V → Option Bool) (prog : Nat → Op K V)

/-- See `next`. -/
def nnext (ord : List (K × Nat) → List (K × Nat)) (go : Bool) (s : State K V) (i : Nat) : Option (State K V) :=
  let h := s.sh
  let op := prog i
  let up (r : Sh K × PC K V) : Option (State K V) := some ({ s with sh := r.1 }.goto i r.2)
  match s.pc i with
  | .start => up (h, nstartStep nan ord h op)
  | .crit => up (ncritStep nan h i op)
  | .unexp e => up (nunexpStep nan h op e)
  | .copy ((k, e) :: es) rm => match h.ent e with
    | .nil => up (h, .expunge ((k, e) :: es) rm)
    | .exp => up (h, .copy es rm)
    | .val _ => up (ndirtyPut nan h k e, .copy es rm)
  | .amend rm => match op.key? with
    | none => up (h, .panic)
    | some k => up (nputNew nan { h with read := ⟨rm, true⟩ } i k (newRes op))
  -- no key is looked up, assigned or deleted
  | _ => next eqv prog ord go s i

/-- One step of some call. -/
def NStep (s : State K V) (evs : List (Ev K V)) (s' : State K V) : Prop :=
  ∃ i ord go, (∀ l, (ord l).Perm l) ∧ nnext nan eqv prog ord go s i = some s' ∧ evs = event prog s i

/-- The executions, with their histories. -/
inductive NExec : List (Ev K V) → State K V → Prop
  | init : NExec [] State.init
  | step {h s evs s'} : NExec h s → NStep nan eqv prog s evs s' → NExec (h ++ evs) s'

/-! ## Replacing keys -/
section
variable {K' : Type} (f : K → K')

def mapL (l : List (K × Nat)) : List (K' × Nat) := l.map fun p => (f p.1, p.2)

def mapOp : Op K V → Op K' V
  | .load k => .load (f k)
  | .swap k v => .swap (f k) v
  | .loadOrStore k v => .loadOrStore (f k) v
  | .loadAndDelete k => .loadAndDelete (f k)
  | .compareAndSwap k o v => .compareAndSwap (f k) o v
  | .compareAndDelete k o => .compareAndDelete (f k) o
  | .clear => .clear
  | .range => .range
  | .len => .len

def mapRes : Res K V → Res K' V
  | .opt v => .opt v
  | .los v b => .los v b
  | .bool b => .bool b
  | .unit => .unit
  | .visited es st => .visited (es.map fun p => (f p.1, p.2)) st
  | .int n => .int n
  | .panicked => .panicked

def mapEv : Ev K V → Ev K' V
  | .inv i => .inv i
  | .visit i k v => .visit i (f k) v
  | .ret i r => .ret i (mapRes f r)

def mapNx : Nx K V → Nx K' V
  | .ent e => .ent e
  | .rng m => .rng (mapL f m)
  | .res r => .res (mapRes f r)

def mapPC : PC K V → PC K' V
  | .idle => .idle
  | .start => .start
  | .acq => .acq
  | .crit => .crit
  | .ent e lk => .ent e lk
  | .cas e lk p => .cas e lk p
  | .unexp e => .unexp e
  | .swp e => .swp e
  | .copy0 rm => .copy0 (mapL f rm)
  | .copy es rm => .copy (mapL f es) (mapL f rm)
  | .expunge es rm => .expunge (mapL f es) (mapL f rm)
  | .amend rm => .amend (mapL f rm)
  | .promo nx => .promo (mapNx f nx)
  | .wipe => .wipe
  | .zero => .zero
  | .unl nx => .unl (mapNx f nx)
  | .rng es acc => .rng (mapL f es) (acc.map fun p => (f p.1, p.2))
  | .add d r => .add d (mapRes f r)
  | .fin r => .fin (mapRes f r)
  | .done r => .done (mapRes f r)
  | .panic => .panic

def mapSh (h : Sh K) : Sh K' :=
  { read := ⟨mapL f h.read.m, h.read.amended⟩, dirty := h.dirty.map (mapL f), misses := h.misses, len := h.len, mu := h.mu
    ent := h.ent, fresh := h.fresh }

def mapSt (s : State K V) : State K' V := ⟨mapSh f s.sh, fun i => mapPC f (s.pc i)⟩

def mapHP (r : Sh K × PC K V) : Sh K' × PC K' V := (mapSh f r.1, mapPC f r.2)
end

/-- A NaN of its own for every call. -/
def tag (i : Nat) (k : K) : K × Option Nat := (k, if nan k then some i else none)

/-- The program in which every call with a NaN has a key of its own, which is like any other key. -/
def own (i : Nat) : Op (K × Option Nat) V := mapOp (tag nan i) (prog i)

variable {nan eqv prog}

theorem mapL_length {K' : Type} (f : K → K') (l : List (K × Nat)) : (mapL f l).length = l.length := by simp [mapL]

/-- Without NaNs this is the machine of `Model.lean`. -/
theorem nnext_next (ord : List (K × Nat) → List (K × Nat)) (go : Bool) (s : State K V) (i : Nat) :
    nnext (fun _ => false) eqv prog ord go s i = next eqv prog ord go s i := by
  have e1 : ∀ (h : Sh K) (op : Op K V), nstartStep (fun _ => false) ord h op = startStep ord h op := by
    intro h op
    cases op with
    | clear => simp only [nstartStep, startStep, List.length_eq_zero_iff]
    | _ => rfl
  have e2 : ∀ (h : Sh K) (op : Op K V), ncritStep (fun _ => false) h i op = critStep h i op := by
    intro h op
    cases op with
    | clear => simp only [ncritStep, critStep, gt_iff_lt, List.length_pos_iff]
    | _ => rfl
  unfold nnext
  split
  · rename_i hc; simp only [next, hc, e1]
  · rename_i hc; simp only [next, hc, e2]
  · rename_i hc; simp only [next, hc]; rfl
  · rename_i hc; simp only [next, hc]; rfl
  · rename_i hc; simp only [next, hc]; rfl
  · rfl

/-! ## The machine with NaNs is the other one, with keys replaced -/

/-- Keys of calls; if they are NaNs, of other calls than `i`. -/
def Keys (nan : K → Bool) (i : Nat) (l : List ((K × Option Nat) × Nat)) : Prop :=
  ∀ p ∈ l, ∃ j k, p.1 = tag nan j k ∧ (nan k = true → j ≠ i)

theorem tag_inj {i j : Nat} {k k' : K} (h : tag nan i k = tag nan j k') : k = k' ∧ (nan k = true → i = j) := by
  simp only [tag, Prod.mk.injEq] at h
  obtain ⟨rfl, h⟩ := h
  refine ⟨rfl, fun hk => ?_⟩
  simpa [hk] using h

theorem tag_fst (i : Nat) (k : K) : (tag nan i k).1 = k := rfl

theorem tag_eq {i j : Nat} {k k' : K} (hk : nan k = false) (h : k' = k) : tag nan i k = tag nan j k' := by
  subst h; simp [tag, hk]

theorem nget_map {i : Nat} {l : List ((K × Option Nat) × Nat)} (hl : Keys nan i l) (k : K) :
    nget nan (mapL Prod.fst l) k = aget l (tag nan i k) := by
  induction l with
  | nil => simp [nget, mapL, aget]
  | cons p l ih =>
    have ih := ih fun q hq => hl q (List.mem_cons_of_mem _ hq)
    obtain ⟨j, k', hp, hj⟩ := hl p List.mem_cons_self
    obtain ⟨⟨k0, o⟩, e⟩ := p
    simp only at hp
    rw [hp]
    simp only [mapL, List.map_cons, aget, tag_fst]
    have hk0 : k0 = k' := congrArg Prod.fst hp
    subst hk0
    by_cases hk : nan k = true
    · have hne : tag nan j k0 ≠ tag nan i k := fun he => by
        obtain ⟨rfl, h2⟩ := tag_inj he
        exact hj hk (h2 hk)
      rw [if_neg hne, ← ih]
      simp [nget, hk]
    · have hk : nan k = false := by simpa using hk
      simp only [nget, hk, Bool.false_eq_true, if_false, aget, mapL, tag_fst] at ih ⊢
      by_cases he : k0 = k
      · subst he
        rw [if_pos rfl, if_pos (tag_eq hk rfl)]
      · rw [if_neg he, if_neg fun h => he (tag_inj h).1]
        exact ih

theorem aput_new {l : List ((K × Option Nat) × Nat)} {k : K × Option Nat} (h : aget l k = none) (e : Nat) : aput l k e = l ++ [(k, e)] := by
  induction l with
  | nil => rfl
  | cons p l ih =>
    obtain ⟨a, v⟩ := p
    simp only [aget] at h
    split at h
    · cases h
    · rename_i hne
      simp [aput, hne, ih h]

theorem nput_map {i : Nat} {l : List ((K × Option Nat) × Nat)} (hl : Keys nan i l) (k : K) (e : Nat) :
    nput nan (mapL Prod.fst l) k e = mapL Prod.fst (aput l (tag nan i k) e) := by
  by_cases hk : nan k = true
  · have := nget_map hl k
    simp only [nget, hk, if_true] at this
    rw [aput_new this.symm]
    simp [nput, hk, mapL, tag]
  · have hk : nan k = false := by simpa using hk
    simp only [nput, hk, Bool.false_eq_true, if_false]
    induction l with
    | nil => simp [mapL, aput, tag]
    | cons p l ih =>
      have ih := ih fun q hq => hl q (List.mem_cons_of_mem _ hq)
      obtain ⟨j, k', hp, hj⟩ := hl p List.mem_cons_self
      obtain ⟨⟨k0, o⟩, e0⟩ := p
      simp only at hp
      rw [hp]
      have hk0 : k0 = k' := congrArg Prod.fst hp
      subst hk0
      simp only [mapL, List.map_cons, aput, tag_fst] at ih ⊢
      by_cases he : k0 = k
      · subst he
        rw [if_pos rfl, if_pos (tag_eq hk rfl)]
        simp [tag]
      · rw [if_neg he, if_neg fun h => he (tag_inj h).1, ih]
        simp [tag]

theorem ndel_map {i : Nat} {l : List ((K × Option Nat) × Nat)} (hl : Keys nan i l) (k : K) :
    ndel nan (mapL Prod.fst l) k = mapL Prod.fst (adel l (tag nan i k)) := by
  by_cases hk : nan k = true
  · simp only [ndel, hk, if_true]
    congr 1
    symm
    refine List.filter_eq_self.2 fun p hp => ?_
    obtain ⟨j, k', hp, hj⟩ := hl p hp
    simp only [hp, ne_eq, decide_not, Bool.not_eq_true', decide_eq_false_iff_not]
    intro he
    obtain ⟨rfl, h2⟩ := tag_inj he
    exact hj hk (h2 hk)
  · have hk : nan k = false := by simpa using hk
    simp only [ndel, hk, Bool.false_eq_true, if_false, mapL, adel, List.filter_map]
    congr 1
    refine List.filter_congr fun p hp => ?_
    obtain ⟨j, k', hp, hj⟩ := hl p hp
    simp only [Function.comp, hp, ne_eq, decide_not, Bool.not_eq_eq_eq_not, Bool.not_not, decide_eq_decide]
    show (tag nan j k').1 = k ↔ _
    constructor
    · intro he; exact (tag_eq hk he).symm
    · intro he; exact (tag_inj he).1

/-! ### The steps -/
section
variable {K' : Type} {f : K' → K} {P : Nat → Op K' V}

theorem finish_map (op : Op K' V) (r : Res K' V) : finish (mapOp f op) (mapRes f r) = mapPC f (finish op r) := by
  rcases r with ⟨_ | v⟩ | ⟨v, _ | _⟩ | ⟨_ | _⟩ | _ | _ | _ | _ <;> cases op <;> rfl

theorem missLocked_map (h : Sh K') (nx : Nx K' V) : missLocked (mapSh f h) (mapNx f nx) = mapHP f (missLocked h nx) := by
  obtain ⟨rd, d, ms, ln, mu, en, fr⟩ := h
  have hl : ((d.map (mapL f)).getD []).length = (d.getD []).length := by cases d <;> simp [mapL]
  simp only [missLocked, mapSh, hl]
  by_cases hm : ms + 1 < (d.getD []).length
  · simp only [if_pos hm]; rfl
  · simp only [if_neg hm]; rfl

theorem after_map (h : Sh K') (op : Op K' V) (lk : Lk) (r : Res K' V) :
    after (mapSh f h) (mapOp f op) lk (mapRes f r) = mapHP f (after h op lk r) := by
  cases lk with
  | u => simp only [after, mapHP, finish_map]
  | l => rfl
  | lm => exact missLocked_map h (.res r)

theorem arg_map (op : Op K' V) : (mapOp f op).arg = op.arg := by cases op <;> rfl

theorem key_map (op : Op K' V) : (mapOp f op).key? = op.key?.map f := by cases op <;> rfl

theorem deref_map (hP : ∀ j, prog j = mapOp f (P j)) (p : Ptr) : deref prog p = deref P p := by
  cases p <;> simp [deref, hP, arg_map]

theorem entStep_map (hP : ∀ j, prog j = mapOp f (P j)) (h : Sh K') (op : Op K' V) (e : Nat) (lk : Lk) :
    entStep eqv prog (mapSh f h) (mapOp f op) e lk = mapHP f (entStep eqv P h op e lk) := by
  have he : (mapSh f h).ent e = h.ent e := rfl
  have haf := fun lk r => after_map (f := f) h op lk r
  cases op with
  | load k => simp only [mapOp, entStep, he, deref_map hP]; exact haf _ (.opt _)
  | swap k v =>
    simp only [mapOp, entStep, he]
    by_cases hp : h.ent e = .exp
    · simp only [if_pos hp]; rfl
    · simp only [if_neg hp]; rfl
  | loadOrStore k v =>
    simp only [mapOp, entStep, he]
    cases h.ent e with
    | exp =>
      by_cases hl : lk = .u
      · simp only [if_pos hl]; rfl
      · simp only [if_neg hl]; exact haf _ (.los _ _)
    | nil => rfl
    | val b => simp only [hP, arg_map]; exact haf _ (.los _ _)
  | loadAndDelete k =>
    simp only [mapOp, entStep, he]
    cases h.ent e with
    | val b => rfl
    | _ => exact haf _ (.opt none)
  | compareAndSwap k o v | compareAndDelete k o =>
    simp only [mapOp, entStep, he]
    cases h.ent e with
    | val b =>
      simp only [hP, arg_map]
      rcases eqv (P b).arg o with _ | _ | _
      · exact haf _ .panicked
      · exact haf _ (.bool false)
      · rfl
    | _ => exact haf _ (.bool false)
  | _ => rfl

theorem casStep_map (hP : ∀ j, prog j = mapOp f (P j)) (h : Sh K') (i : Nat) (op : Op K' V) (e : Nat) (lk : Lk) (p : Ptr) :
    casStep prog (mapSh f h) i (mapOp f op) e lk p = mapHP f (casStep P h i op e lk p) := by
  have he : (mapSh f h).ent e = h.ent e := rfl
  have hs : ∀ q, (mapSh f h).setEnt e q = mapSh f (h.setEnt e q) := fun _ => rfl
  unfold casStep
  by_cases hp : h.ent e = p
  · rw [if_pos (he.trans hp), if_pos hp]
    have haf := fun h op lk r => after_map (V := V) (f := f) h op lk r
    cases op with
    | swap k v => simp only [mapOp, hs, deref_map hP]; exact haf _ (.swap k v) _ (.opt _)
    | loadOrStore k v => simp only [mapOp, hs]; exact haf _ (.loadOrStore k v) _ (.los _ _)
    | compareAndSwap k o v => simp only [mapOp, hs]; exact haf _ (.compareAndSwap k o v) _ (.bool _)
    | loadAndDelete k => simp only [mapOp, hs, deref_map hP]; exact haf _ (.loadAndDelete k) _ (.opt _)
    | compareAndDelete k o => simp only [mapOp, hs]; exact haf _ (.compareAndDelete k o) _ (.bool _)
    | _ => rfl
  · rw [if_neg (fun hh => hp (he ▸ hh)), if_neg hp]; rfl

theorem swpStep_map (hP : ∀ j, prog j = mapOp f (P j)) (h : Sh K') (i e : Nat) :
    swpStep prog (mapSh f h) i e = mapHP f (swpStep P h i e) := by
  have he : (mapSh f h).ent e = h.ent e := rfl
  unfold swpStep
  rw [he]
  cases h.ent e with
  | exp => rfl
  | nil => rfl
  | val b => simp only [deref_map hP]; rfl
end

theorem own_map (i : Nat) : prog i = mapOp Prod.fst (own nan prog i) := by
  unfold own
  cases prog i <;> rfl

section
variable {i : Nat} {h : Sh (K × Option Nat)}

theorem nputNew_map (hd : ∀ d, h.dirty = some d → Keys nan i d) (k : K) (r : Res (K × Option Nat) V) :
    nputNew nan (mapSh Prod.fst h) i k (mapRes Prod.fst r) = mapHP Prod.fst (putNew h i (tag nan i k) r) := by
  obtain ⟨rd, d, ms, ln, mu, en, fr⟩ := h
  cases d with
  | none => rfl
  | some d =>
    have := nput_map (hd d rfl) k fr
    simp only [nputNew, putNew, mapSh, Option.map_some, this, mapHP]
    rfl

theorem nstartStep_map (hr : Keys nan i h.read.m) {ord : List (K × Nat) → List (K × Nat)}
    {ord' : List ((K × Option Nat) × Nat) → List ((K × Option Nat) × Nat)} (ho : mapL Prod.fst (ord' h.read.m) = ord (mapL Prod.fst h.read.m))
    (op : Op K V) : nstartStep nan ord (mapSh Prod.fst h) op = mapPC Prod.fst (startStep ord' h (mapOp (tag nan i) op)) := by
  have hg := fun k => nget_map hr k
  have hm : (mapSh Prod.fst h).read.m = mapL Prod.fst h.read.m := rfl
  have ha : (mapSh Prod.fst h).read.amended = h.read.amended := rfl
  cases op with
  | load k | loadAndDelete k | compareAndSwap k _ _ | compareAndDelete k _ =>
    simp only [nstartStep, startStep, mapOp, hm, hg, ha]
    cases aget h.read.m (tag nan i k) with
    | some e => rfl
    | none => cases h.read.amended <;> rfl
  | swap k v | loadOrStore k v =>
    simp only [nstartStep, startStep, mapOp, hm, hg]
    cases aget h.read.m (tag nan i k) <;> rfl
  | clear =>
    simp only [nstartStep, startStep, mapOp, hm, ha, mapL_length, List.length_eq_zero_iff]
    by_cases hc : h.read.m = [] ∧ h.read.amended = false
    · simp only [if_pos hc]; rfl
    · simp only [if_neg hc]; rfl
  | range =>
    simp only [nstartStep, startStep, mapOp, hm, ha, ← ho]
    cases h.read.amended <;> rfl
  | len => rfl

theorem ncritStep_map (hr : Keys nan i h.read.m) (hd : ∀ d, h.dirty = some d → Keys nan i d) (op : Op K V) :
    ncritStep nan (mapSh Prod.fst h) i op = mapHP Prod.fst (critStep h i (mapOp (tag nan i) op)) := by
  have hg := fun k => nget_map hr k
  have hg' : ∀ k, nget nan ((mapSh Prod.fst h).dirty.getD []) k = aget (h.dirty.getD []) (tag nan i k) := by
    intro k
    cases hdd : h.dirty with
    | none => simp [mapSh, hdd, nget, aget]
    | some d => simpa [mapSh, hdd] using nget_map (hd d hdd) k
  have hm : (mapSh Prod.fst h).read.m = mapL Prod.fst h.read.m := rfl
  have ha : (mapSh Prod.fst h).read.amended = h.read.amended := rfl
  have hml := fun (h : Sh (K × Option Nat)) (nx : Nx (K × Option Nat) V) => missLocked_map (f := Prod.fst) h nx
  have hpn := fun k r => nputNew_map (V := V) hd k r
  cases op with
  | load k | compareAndDelete k _ =>
    simp only [ncritStep, critStep, mapOp, hm, hg, hg', ha]
    cases aget h.read.m (tag nan i k) with
    | some e => rfl
    | none =>
      cases h.read.amended with
      | false => rfl
      | true =>
        simp only [if_true]
        cases aget (h.dirty.getD []) (tag nan i k) with
        | some e => exact hml h (.ent e)
        | none => first | exact hml h (.res (.opt none)) | exact hml h (.res (.bool false))
  | loadAndDelete k =>
    simp only [ncritStep, critStep, mapOp, hm, hg, hg', ha]
    have hdel : ({ mapSh Prod.fst h with dirty := (mapSh Prod.fst h).dirty.map (ndel nan · k) } : Sh K) =
        mapSh Prod.fst { h with dirty := h.dirty.map (adel · (tag nan i k)) } := by
      cases hdd : h.dirty with
      | none => simp [mapSh, hdd]
      | some d => simp [mapSh, hdd, ndel_map (hd d hdd)]
    cases aget h.read.m (tag nan i k) with
    | some e => rfl
    | none =>
      cases h.read.amended with
      | false => rfl
      | true =>
        simp only [if_true]
        cases aget (h.dirty.getD []) (tag nan i k) with
        | some e => exact (congrArg (missLocked · (.ent e)) hdel).trans (hml _ (.ent e))
        | none => exact (congrArg (missLocked · (.res (.opt none))) hdel).trans (hml _ (.res (.opt none)))
  | swap k v =>
    simp only [ncritStep, critStep, mapOp, hm, hg, hg', ha]
    cases aget h.read.m (tag nan i k) with
    | some e => rfl
    | none =>
      cases aget (h.dirty.getD []) (tag nan i k) with
      | some e => rfl
      | none => cases h.read.amended with
        | false => rfl
        | true => exact hpn k (.opt none)
  | loadOrStore k v =>
    simp only [ncritStep, critStep, mapOp, hm, hg, hg', ha]
    cases aget h.read.m (tag nan i k) with
    | some e => rfl
    | none =>
      cases aget (h.dirty.getD []) (tag nan i k) with
      | some e => rfl
      | none => cases h.read.amended with
        | false => rfl
        | true => exact hpn k (.los v false)
  | compareAndSwap k o v =>
    simp only [ncritStep, critStep, mapOp, hm, hg, hg', ha]
    cases aget h.read.m (tag nan i k) with
    | some e => rfl
    | none => cases aget (h.dirty.getD []) (tag nan i k) <;> rfl
  | clear =>
    simp only [ncritStep, critStep, mapOp, hm, ha, mapL_length, gt_iff_lt, List.length_pos_iff]
    by_cases hc : h.read.m ≠ [] ∨ h.read.amended = true
    · simp only [if_pos hc]; rfl
    · simp only [if_neg hc]
      cases hdd : h.dirty <;> simp [mapSh, mapHP, mapPC, hdd, mapL]
  | range =>
    simp only [ncritStep, critStep, mapOp, hm, ha]
    cases h.read.amended with
    | false => rfl
    | true => cases hdd : h.dirty <;> simp [mapSh, mapHP, mapPC, mapNx, hdd, mapL]
  | len => rfl

theorem nunexpStep_map (hd : ∀ d, h.dirty = some d → Keys nan i d) (op : Op K V) (e : Nat) :
    nunexpStep nan (mapSh Prod.fst h) op e = mapHP Prod.fst (unexpStep h (mapOp (tag nan i) op) e) := by
  have he : (mapSh Prod.fst h).ent e = h.ent e := rfl
  unfold nunexpStep unexpStep
  by_cases hp : h.ent e = .exp
  · simp only [if_pos (he.trans hp), if_pos hp]
    obtain ⟨rd, d, ms, ln, mu, en, fr⟩ := h
    cases op with
    | swap k v | loadOrStore k v =>
      cases d with
      | none => rfl
      | some d =>
        have := nput_map (hd d rfl) k e
        simp only [mapOp, mapSh, Option.map_some, Sh.setEnt, this]
        rfl
    | _ => rfl
  · simp only [if_neg (show ¬ (mapSh Prod.fst h).ent e = .exp from hp), if_neg hp]
    cases op <;> rfl
end

/-- Every key in the maps is that of a call that has come to its last steps. -/
def Late : PC K V → Prop
  | .unl (.res _) | .promo (.res _) | .add _ _ | .fin _ | .done _ => True
  | _ => False

def InMap (h : Sh K) (k : K) : Prop := k ∈ h.read.m.map (·.1) ∨ ∃ d, h.dirty = some d ∧ k ∈ d.map (·.1)

def KeysOk (prog : Nat → Op K V) (s : State K V) : Prop := ∀ k, InMap s.sh k → ∃ j, (prog j).key? = some k ∧ Late (s.pc j)

theorem KeysOk.keys {t : State (K × Option Nat) V} (hk : KeysOk (own nan prog) t) {i : Nat} (hl : ¬ Late (t.pc i)) :
    Keys nan i t.sh.read.m ∧ ∀ d, t.sh.dirty = some d → Keys nan i d := by
  have : ∀ k, InMap t.sh k → ∃ j k0, k = tag nan j k0 ∧ (nan k0 = true → j ≠ i) := by
    intro k hm
    obtain ⟨j, hj, hp⟩ := hk k hm
    simp only [own, key_map, Option.map_eq_some_iff] at hj
    obtain ⟨k0, _, rfl⟩ := hj
    exact ⟨j, k0, rfl, by rintro _ rfl; exact hl hp⟩
  exact ⟨fun p hp => this _ (.inl (List.mem_map_of_mem hp)), fun d hd p hp => this _ (.inr ⟨d, hd, List.mem_map_of_mem hp⟩)⟩

/-- The list that a step of call `i` loops over, if it does. -/
def used {K : Type} (t : State K V) (i : Nat) : List (K × Nat) :=
  match t.pc i with
  | .unl (.rng m) => m
  | _ => t.sh.read.m

/-- What a step of the other machine is for this one. -/
theorem nnext_map {t : State (K × Option Nat) V} {g : Ghost (K × Option Nat) V} (I : Inv eqv (own nan prog) t g) (hk : KeysOk (own nan prog) t)
    {ord : List (K × Nat) → List (K × Nat)} {ord' : List ((K × Option Nat) × Nat) → List ((K × Option Nat) × Nat)}
    (go : Bool) (i : Nat) (ho : mapL Prod.fst (ord' (used t i)) = ord (mapL Prod.fst (used t i))) :
    nnext nan eqv prog ord go (mapSt Prod.fst t) i = (next eqv (own nan prog) ord' go t i).map (mapSt Prod.fst) := by
  have hP := fun j => own_map (nan := nan) (prog := prog) j
  have hup : ∀ (r : Sh (K × Option Nat) × PC (K × Option Nat) V) (r' : Sh K × PC K V), r' = mapHP Prod.fst r →
      some (({ mapSt Prod.fst t with sh := r'.1 } : State K V).goto i r'.2) =
        (some (({ t with sh := r.1 } : State (K × Option Nat) V).goto i r.2)).map (mapSt Prod.fst) := by
    rintro r _ rfl
    simp only [Option.map_some, Option.some.injEq, mapSt, State.goto, mapHP, State.mk.injEq, true_and]
    funext j
    split <;> rfl
  have hnl : ∀ {c}, t.pc i = c → ¬ Late c → ¬ Late (t.pc i) := fun h h' => h ▸ h'
  have hsh : (mapSt Prod.fst t).sh = mapSh Prod.fst t.sh := rfl
  unfold nnext next
  have hpc : (mapSt Prod.fst t).pc i = mapPC Prod.fst (t.pc i) := rfl
  cases hc : t.pc i with
  | idle => simp only [hpc, hc, mapPC, next]; exact hup (t.sh, .start) _ rfl
  | start =>
    simp only [hpc, hc, mapPC]
    exact hup (t.sh, startStep ord' t.sh (own nan prog i)) (mapSh Prod.fst t.sh, _) (Prod.ext rfl (nstartStep_map (hk.keys (hnl hc id)).1 (by simpa only [used, hc] using ho) (prog i)))
  | acq =>
    simp only [hpc, hc, mapPC, next]
    by_cases hm : t.sh.mu = none
    · rw [if_pos hm, if_pos (show (mapSt Prod.fst t).sh.mu = none from hm)]
      exact hup ({ t.sh with mu := some i }, .crit) _ rfl
    · rw [if_neg hm, if_neg (show ¬ (mapSt Prod.fst t).sh.mu = none from hm)]; rfl
  | crit =>
    simp only [hpc, hc, mapPC]
    have := hk.keys (hnl hc id)
    exact hup _ _ (ncritStep_map this.1 this.2 (prog i))
  | ent e lk =>
    simp only [hpc, hc, mapPC, next]
    refine hup _ _ ?_
    conv => lhs; rw [hP i]
    exact entStep_map hP t.sh _ e lk
  | cas e lk p =>
    simp only [hpc, hc, mapPC, next]
    refine hup _ _ ?_
    conv => lhs; rw [hP i]
    exact casStep_map hP t.sh i _ e lk p
  | unexp e =>
    simp only [hpc, hc, mapPC]
    exact hup _ _ (nunexpStep_map (hk.keys (hnl hc id)).2 (prog i) e)
  | swp e =>
    simp only [hpc, hc, mapPC, next]
    exact hup _ _ (swpStep_map hP t.sh i e)
  | copy0 rm =>
    simp only [hpc, hc, mapPC, next]
    have hs : (mapSt Prod.fst t).sh.dirty.isSome = t.sh.dirty.isSome := by simp [mapSt, mapSh]
    by_cases hm : t.sh.dirty.isSome = true
    · rw [if_pos hm, if_pos (hs.trans hm)]
      exact hup (t.sh, .amend rm) _ rfl
    · rw [if_neg hm, if_neg (by rw [hs]; exact hm)]
      simp only [used, hc] at ho
      exact hup ({ t.sh with dirty := some [] }, .copy (ord' t.sh.read.m) rm) _ (by simp only [mapHP, mapPC, ho]; rfl)
  | copy es rm =>
    rcases es with _ | ⟨⟨k, e⟩, es⟩
    · simp only [hpc, hc, mapPC, next, mapL, List.map_nil]
      exact hup (t.sh, .amend rm) _ rfl
    · simp only [hpc, hc, mapPC, mapL, List.map_cons]
      rw [show (mapSt Prod.fst t).sh.ent e = t.sh.ent e from rfl]
      cases he : t.sh.ent e with
      | nil => exact hup (t.sh, .expunge ((k, e) :: es) rm) _ rfl
      | exp => exact hup (t.sh, .copy es rm) _ rfl
      | val b =>
        refine hup (dirtyPut t.sh k e, .copy es rm) (ndirtyPut nan (mapSh Prod.fst t.sh) k.1 e, .copy (mapL Prod.fst es) (mapL Prod.fst rm)) ?_
        simp only [mapHP, Prod.mk.injEq]
        refine ⟨?_, rfl⟩
        -- the key has not been copied yet
        cases hd : t.sh.dirty with
        | none => simp [ndirtyPut, dirtyPut, mapSt, mapSh, hd]
        | some d =>
          have hO := I.ops i
          simp only [OpOk, hc] at hO
          have hrm := hO.2.2.2 k e List.mem_cons_self
          have hmem : (k, e) ∈ remaining t := by
            have hmu := (I.str.mu i).1 (by rw [hc]; rfl)
            simp [remaining, hmu, hc, PC.remaining]
          have hnone := (I.str.core.rem d hd k e hrm hmem).1
          obtain ⟨j, hj, hlate⟩ := hk k (.inl (List.mem_map.2 ⟨(k, e), mem_of_aget hrm, rfl⟩))
          simp only [own, key_map, Option.map_eq_some_iff] at hj
          obtain ⟨k0, hk0, rfl⟩ := hj
          have hK : Keys nan j d := by
            intro p hp
            obtain ⟨j', hj', _⟩ := hk p.1 (.inr ⟨d, hd, List.mem_map_of_mem hp⟩)
            simp only [own, key_map, Option.map_eq_some_iff] at hj'
            obtain ⟨k1, hk1, h1⟩ := hj'
            refine ⟨j', k1, h1.symm, ?_⟩
            rintro hn rfl
            rw [hk0] at hk1
            cases hk1
            rw [aget_eq_none] at hnone
            exact hnone (h1 ▸ List.mem_map_of_mem hp)
          simp only [ndirtyPut, dirtyPut, mapSt, mapSh, hd, Option.map_some, tag_fst, nput_map hK]
  | expunge es rm =>
    rcases es with _ | ⟨⟨k, e⟩, es⟩
    · simp [hpc, hc, mapPC, next, mapL]
    · simp only [hpc, hc, mapPC, next, mapL, List.map_cons]
      by_cases hm : t.sh.ent e = .nil
      · rw [if_pos hm, if_pos (show (mapSt Prod.fst t).sh.ent e = .nil from hm)]
        exact hup (t.sh.setEnt e .exp, .copy es rm) _ rfl
      · rw [if_neg hm, if_neg (show ¬ (mapSt Prod.fst t).sh.ent e = .nil from hm)]
        exact hup (t.sh, .copy ((k, e) :: es) rm) _ rfl
  | amend rm =>
    simp only [hpc, hc, mapPC]
    have hK := (hk.keys (hnl hc id)).2
    have hnr : newRes (prog i) = mapRes Prod.fst (newRes (own nan prog i)) := by
      unfold own; cases prog i <;> rfl
    simp only [own, key_map]
    cases hkey : (prog i).key? with
    | none => exact hup (t.sh, .panic) _ rfl
    | some k =>
      simp only [Option.map_some]
      refine hup _ _ ?_
      rw [hnr]
      exact nputNew_map (h := { t.sh with read := ⟨rm, true⟩ }) hK k _
  | promo nx =>
    simp only [hpc, hc, mapPC, next]
    refine hup ({ t.sh with read := ⟨t.sh.dirty.getD [], false⟩, dirty := none, misses := 0 }, .unl nx)
      ({ mapSh Prod.fst t.sh with read := ⟨(mapSh Prod.fst t.sh).dirty.getD [], false⟩, dirty := none, misses := 0 }, .unl (mapNx Prod.fst nx)) ?_
    simp only [mapHP, mapPC, mapSh, mapSt, Prod.mk.injEq, and_true]
    cases t.sh.dirty <;> rfl
  | wipe =>
    simp only [hpc, hc, mapPC, next]
    refine hup ({ t.sh with read := ⟨[], false⟩, dirty := t.sh.dirty.map (fun _ => []), misses := 0 }, .zero)
      ({ mapSh Prod.fst t.sh with read := ⟨[], false⟩, dirty := (mapSh Prod.fst t.sh).dirty.map (fun _ => []), misses := 0 }, .zero) ?_
    simp only [mapHP, mapPC, mapSh, mapSt, Prod.mk.injEq, and_true]
    cases t.sh.dirty <;> rfl
  | zero => simp only [hpc, hc, mapPC, next]; exact hup ({ t.sh with len := 0 }, .unl (.res .unit)) _ rfl
  | unl nx =>
    simp only [hpc, hc, mapPC, next]
    cases nx with
    | ent e => exact hup ({ t.sh with mu := none }, .ent e .u) _ rfl
    | rng m =>
      simp only [used, hc] at ho
      exact hup ({ t.sh with mu := none }, .rng (ord' m) []) _ (by simp only [mapHP, mapPC, ho]; rfl)
    | res r =>
      refine hup ({ t.sh with mu := none }, finish (own nan prog i) r) ({ mapSh Prod.fst t.sh with mu := none }, finish (prog i) (mapRes Prod.fst r)) ?_
      simp only [mapHP, ← finish_map, ← hP]
      rfl
  | rng es acc =>
    rcases es with _ | ⟨⟨k, e⟩, es⟩
    · simp only [hpc, hc, mapPC, next, mapL, List.map_nil]
      exact hup (t.sh, .fin (.visited acc false)) _ rfl
    · simp only [hpc, hc, mapPC, next, mapL, List.map_cons]
      rw [show (mapSt Prod.fst t).sh.ent e = t.sh.ent e from rfl, deref_map hP]
      cases deref (own nan prog) (t.sh.ent e) with
      | none => exact hup (t.sh, .rng es acc) _ rfl
      | some v =>
        cases go with
        | true => exact hup (t.sh, .rng es (acc ++ [(k, v)])) _ (by simp [mapHP, mapPC, mapL]; rfl)
        | false => exact hup (t.sh, .fin (.visited (acc ++ [(k, v)]) true)) _ (by simp [mapHP, mapPC, mapRes]; rfl)
  | add d r => simp only [hpc, hc, mapPC, next]; exact hup ({ t.sh with len := t.sh.len + d }, .fin r) _ rfl
  | fin r => simp only [hpc, hc, mapPC, next]; exact hup (t.sh, .done r) _ rfl
  | done r => simp [hpc, hc, mapPC, next]
  | panic => simp [hpc, hc, mapPC, next]

theorem inMap_of {h h' : Sh K} (h1 : h'.read.m = h.read.m) (h2 : h'.dirty = h.dirty) {k : K} (hk : InMap h' k) : InMap h k := by
  unfold InMap at hk ⊢; rwa [h1, h2] at hk

theorem inMap_miss {h : Sh K} {nx : Nx K V} {k : K} (hk : InMap (missLocked h nx).1 k) : InMap h k := by
  refine inMap_of ?_ ?_ hk <;> (unfold missLocked; simp only; split <;> rfl)

theorem inMap_after {h : Sh K} {op : Op K V} {lk : Lk} {r : Res K V} {k : K} (hk : InMap (after h op lk r).1 k) : InMap h k := by
  cases lk with
  | lm => exact inMap_miss hk
  | _ => exact hk

theorem mem_aput {l : List (K × Nat)} {k k' : K} {e : Nat} (h : k' ∈ (aput l k e).map (·.1)) : k' = k ∨ k' ∈ l.map (·.1) := by
  induction l with
  | nil => simpa [aput] using h
  | cons p l ih =>
    obtain ⟨a, v⟩ := p
    simp only [aput] at h
    split at h
    · rename_i he; subst he; exact .inr h
    · simp only [List.map_cons, List.mem_cons] at h ⊢
      rcases h with h | h
      · exact .inr (.inl h)
      · rcases ih h with h | h
        · exact .inl h
        · exact .inr (.inr h)

theorem inMap_putNew {h : Sh K} {i : Nat} {k k' : K} {r : Res K V} (hk : InMap (putNew h i k r).1 k') :
    InMap h k' ∨ k' = k ∧ Late (putNew h i k r).2 := by
  obtain ⟨rd, d, ms, ln, mu, en, fr⟩ := h
  cases d with
  | none => exact .inl hk
  | some d =>
    rcases hk with hk | ⟨d', hd', hk⟩
    · exact .inl (.inl hk)
    · cases hd'
      rcases mem_aput hk with h | h
      · exact .inr ⟨h, trivial⟩
      · exact .inl (.inr ⟨d, rfl, h⟩)

theorem inMap_crit {h : Sh K} {i : Nat} {op : Op K V} {k' : K} (hk : InMap (critStep h i op).1 k') :
    InMap h k' ∨ op.key? = some k' ∧ Late (critStep h i op).2 := by
  cases op with
  | load k | compareAndDelete k _ =>
    left
    simp only [critStep] at hk
    split at hk
    · exact hk
    · split at hk
      · split at hk <;> exact inMap_miss hk
      · exact hk
  | loadAndDelete k =>
    left
    simp only [critStep] at hk
    have hdel : InMap { h with dirty := h.dirty.map (adel · k) } k' → InMap h k' := by
      rintro (h1 | ⟨d, hd, h1⟩)
      · exact .inl h1
      · simp only [Option.map_eq_some_iff] at hd
        obtain ⟨d0, hd0, rfl⟩ := hd
        refine .inr ⟨d0, hd0, ?_⟩
        obtain ⟨p, hp, rfl⟩ := List.mem_map.1 h1
        exact List.mem_map_of_mem (List.mem_filter.1 hp).1
    split at hk
    · exact hk
    · split at hk
      · split at hk <;> exact hdel (inMap_miss hk)
      · exact hk
  | swap k v | loadOrStore k v =>
    simp only [critStep] at hk ⊢
    split at hk
    · exact .inl hk
    · rename_i hr
      split at hk
      · exact .inl hk
      · rename_i hd
        split at hk
        · rename_i ha
          simp only [ha, if_true, Op.key?]
          rcases inMap_putNew hk with h1 | ⟨h1, h2⟩
          · exact .inl h1
          · exact .inr ⟨by rw [h1], h2⟩
        · exact .inl hk
  | compareAndSwap k o v =>
    left
    simp only [critStep] at hk
    split at hk
    · exact hk
    · split at hk <;> exact hk
  | clear =>
    left
    simp only [critStep] at hk
    split at hk
    · exact hk
    · rcases hk with h1 | ⟨d, hd, h1⟩
      · exact .inl h1
      · simp only [Option.map_eq_some_iff] at hd
        obtain ⟨d0, hd0, rfl⟩ := hd
        cases h1
  | range =>
    left
    simp only [critStep] at hk
    split at hk <;> exact hk
  | len => exact .inl hk

theorem inMap_ent {h : Sh K} {op : Op K V} {e : Nat} {lk : Lk} {k' : K} (hk : InMap (entStep eqv prog h op e lk).1 k') : InMap h k' := by
  unfold entStep at hk
  cases op <;> simp only at hk
  all_goals repeat' split at hk
  all_goals first | exact hk | exact inMap_after hk

theorem inMap_cas {h : Sh K} {i : Nat} {op : Op K V} {e : Nat} {lk : Lk} {p : Ptr} {k' : K}
    (hk : InMap (casStep prog h i op e lk p).1 k') : InMap h k' := by
  unfold casStep at hk
  split at hk
  · cases op <;> simp only at hk
    all_goals first | exact hk | exact inMap_after (h := h.setEnt e _) hk
  · exact hk

theorem inMap_unexp {h : Sh K} {op : Op K V} {e : Nat} {k' : K} (hk : InMap (unexpStep h op e).1 k') : InMap h k' ∨ op.key? = some k' := by
  unfold unexpStep at hk
  obtain ⟨rd, d, ms, ln, mu, en, fr⟩ := h
  cases op <;> simp only at hk <;> split at hk
  case swap.isTrue | loadOrStore.isTrue =>
    cases d with
    | none => exact .inl hk
    | some d =>
      rcases hk with hk | ⟨d', hd', hk⟩
      · exact .inl (.inl hk)
      · cases hd'
        rcases mem_aput hk with h | h
        · exact .inr (by rw [h]; rfl)
        · exact .inl (.inr ⟨d, rfl, h⟩)
  all_goals exact .inl hk

theorem inMap_swp {h : Sh K} {i e : Nat} {k' : K} (hk : InMap (swpStep prog h i e).1 k') : InMap h k' := by
  unfold swpStep at hk
  split at hk <;> exact hk

theorem finish_late (op : Op K V) (r : Res K V) : Late (finish op r) := by
  unfold finish
  split <;> trivial

theorem keysOk_step {s s' : State K V} {g : Ghost K V} (I : Inv eqv prog s g) {ord : List (K × Nat) → List (K × Nat)} {go : Bool} {i : Nat}
    (hn : next eqv prog ord go s i = some s') (hk : KeysOk prog s) : KeysOk prog s' := by
  -- a step adds no keys but that of its call, which is late then
  suffices key : (∀ k, InMap s'.sh k → InMap s.sh k ∨ (prog i).key? = some k ∧ Late (s'.pc i)) ∧ (Late (s.pc i) → Late (s'.pc i)) by
    intro k hm
    rcases key.1 k hm with h1 | h1
    · obtain ⟨j, hj, hl⟩ := hk k h1
      refine ⟨j, hj, ?_⟩
      by_cases hji : j = i
      · subst hji; exact key.2 hl
      · rw [next_other hn hji]; exact hl
    · exact ⟨i, h1⟩
  have hgo : ∀ (r : Sh K × PC K V), (({ s with sh := r.1 } : State K V).goto i r.2).pc i = r.2 := by intro r; simp [State.goto]
  have hsame : ∀ {c : PC K V} {h : Sh K}, s' = ({ s with sh := h } : State K V).goto i c → h.read.m = s.sh.read.m → h.dirty = s.sh.dirty →
      (∀ k, InMap s'.sh k → InMap s.sh k ∨ (prog i).key? = some k ∧ Late (s'.pc i)) := by
    rintro c h rfl h1 h2 k hk
    exact .inl (inMap_of h1 h2 hk)
  have hO := I.ops i
  unfold next at hn
  cases hc : s.pc i with
  | idle => simp only [hc, Option.some.injEq] at hn; exact ⟨hsame hn.symm rfl rfl, nofun⟩
  | start => simp only [hc, Option.some.injEq] at hn; exact ⟨hsame hn.symm rfl rfl, nofun⟩
  | acq =>
    simp only [hc] at hn
    split at hn
    · simp only [Option.some.injEq] at hn; exact ⟨hsame hn.symm rfl rfl, nofun⟩
    · cases hn
  | crit =>
    simp only [hc, Option.some.injEq] at hn
    subst hn
    refine ⟨fun k hk => ?_, nofun⟩
    rw [hgo]
    exact inMap_crit hk
  | ent e lk =>
    simp only [hc, Option.some.injEq] at hn
    subst hn
    exact ⟨fun k hk => .inl (inMap_ent hk), nofun⟩
  | cas e lk p =>
    simp only [hc, Option.some.injEq] at hn
    subst hn
    exact ⟨fun k hk => .inl (inMap_cas hk), nofun⟩
  | unexp e =>
    simp only [hc, Option.some.injEq] at hn
    subst hn
    refine ⟨fun k hk => .inl ?_, nofun⟩
    rcases inMap_unexp hk with h1 | h1
    · exact h1
    · simp only [OpOk, hc] at hO
      obtain ⟨_, k', hk', ha⟩ := hO
      rw [h1] at hk'
      cases hk'
      exact .inl (List.mem_map.2 ⟨_, mem_of_aget ha, rfl⟩)
  | swp e =>
    simp only [hc, Option.some.injEq] at hn
    subst hn
    exact ⟨fun k hk => .inl (inMap_swp hk), nofun⟩
  | copy0 rm =>
    simp only [hc] at hn
    split at hn <;> simp only [Option.some.injEq] at hn
    · exact ⟨hsame hn.symm rfl rfl, nofun⟩
    · subst hn
      refine ⟨fun k hk => .inl ?_, nofun⟩
      rcases hk with h1 | ⟨d, hd, h1⟩
      · exact .inl h1
      · cases hd; cases h1
  | copy es rm =>
    rcases es with _ | ⟨⟨k, e⟩, es⟩
    · simp only [hc, Option.some.injEq] at hn; exact ⟨hsame hn.symm rfl rfl, nofun⟩
    · simp only [hc] at hn
      split at hn <;> simp only [Option.some.injEq] at hn
      · exact ⟨hsame hn.symm rfl rfl, nofun⟩
      · exact ⟨hsame hn.symm rfl rfl, nofun⟩
      · subst hn
        refine ⟨fun k' hk' => .inl ?_, nofun⟩
        rcases hk' with h1 | ⟨d, hd, h1⟩
        · exact .inl h1
        · simp only [State.goto, dirtyPut, Option.map_eq_some_iff] at hd
          obtain ⟨d0, hd0, rfl⟩ := hd
          rcases mem_aput h1 with h2 | h2
          · subst h2
            simp only [OpOk, hc] at hO
            exact .inl (List.mem_map.2 ⟨_, mem_of_aget (hO.2.2.2 _ e List.mem_cons_self), rfl⟩)
          · exact .inr ⟨d0, hd0, h2⟩
  | expunge es rm =>
    rcases es with _ | ⟨⟨k, e⟩, es⟩
    · simp [hc] at hn
    · simp only [hc] at hn
      split at hn <;> simp only [Option.some.injEq] at hn <;> exact ⟨hsame hn.symm rfl rfl, nofun⟩
  | amend rm =>
    simp only [hc] at hn
    simp only [OpOk, hc] at hO
    obtain ⟨⟨k0, _, hk0, hrm, _, _⟩, _⟩ := hO
    rw [hk0] at hn
    simp only [Option.some.injEq] at hn
    subst hn
    refine ⟨fun k hk => ?_, nofun⟩
    rw [hgo]
    rcases inMap_putNew hk with h1 | ⟨h1, h2⟩
    · exact .inl (inMap_of (h' := { s.sh with read := ⟨rm, true⟩ }) hrm rfl h1)
    · exact .inr ⟨h1 ▸ hk0, h2⟩
  | promo nx =>
    simp only [hc, Option.some.injEq] at hn
    subst hn
    refine ⟨fun k hk => .inl ?_, fun hl => ?_⟩
    · rcases hk with h1 | ⟨d, hd, _⟩
      · simp only [State.goto] at h1
        cases hd : s.sh.dirty with
        | none => rw [hd] at h1; cases h1
        | some d => rw [hd] at h1; exact .inr ⟨d, hd, h1⟩
      · cases hd
    · simp only [State.goto, if_true]
      cases nx <;> exact hl
  | wipe =>
    simp only [hc, Option.some.injEq] at hn
    subst hn
    refine ⟨fun k hk => .inl ?_, nofun⟩
    rcases hk with h1 | ⟨d, hd, h1⟩
    · cases h1
    · simp only [State.goto, Option.map_eq_some_iff] at hd
      obtain ⟨d0, hd0, rfl⟩ := hd
      cases h1
  | zero => simp only [hc, Option.some.injEq] at hn; exact ⟨hsame hn.symm rfl rfl, nofun⟩
  | unl nx =>
    simp only [hc] at hn
    cases nx <;> simp only [Option.some.injEq] at hn
    · exact ⟨hsame hn.symm rfl rfl, nofun⟩
    · exact ⟨hsame hn.symm rfl rfl, nofun⟩
    · refine ⟨hsame hn.symm rfl rfl, fun _ => ?_⟩
      rw [← hn]
      simp only [State.goto, if_true]
      exact finish_late _ _
  | rng es acc =>
    rcases es with _ | ⟨⟨k, e⟩, es⟩
    · simp only [hc, Option.some.injEq] at hn; exact ⟨hsame hn.symm rfl rfl, nofun⟩
    · simp only [hc] at hn
      repeat' split at hn
      all_goals simp only [Option.some.injEq] at hn; exact ⟨hsame hn.symm rfl rfl, nofun⟩
  | add d r => simp only [hc, Option.some.injEq] at hn; exact ⟨hsame hn.symm rfl rfl, fun _ => by rw [← hn]; simp [State.goto, Late]⟩
  | fin r => simp only [hc, Option.some.injEq] at hn; exact ⟨hsame hn.symm rfl rfl, fun _ => by rw [← hn]; simp [State.goto, Late]⟩
  | done r => simp [hc] at hn
  | panic => simp [hc] at hn

theorem keysOk {h : List (Ev K V)} {s : State K V} (hx : Exec eqv prog h s) : KeysOk prog s := by
  induction hx with
  | init =>
    intro k hk
    rcases hk with h1 | ⟨d, hd, _⟩
    · cases h1
    · cases hd
  | step hx hs ih =>
    obtain ⟨i, ord, go, _, hn, rfl⟩ := hs
    obtain ⟨g, I, _⟩ := exec_inv hx
    exact keysOk_step I hn ih

/-! ## C147 -/

/-- A permutation of the images is one of the list. -/
theorem lift_perm {α β : Type} (f : α → β) {m m' : List β} (h : m.Perm m') :
    ∀ l : List α, l.map f = m' → ∃ l' : List α, l'.Perm l ∧ l'.map f = m := by
  induction h with
  | nil => intro l hl; exact ⟨l, .refl _, hl⟩
  | cons x _ ih =>
    intro l hl
    obtain ⟨a, l, rfl, rfl, hl'⟩ := List.map_eq_cons_iff.1 hl
    obtain ⟨l', h1, h2⟩ := ih l hl'
    exact ⟨a :: l', h1.cons a, by rw [List.map_cons, h2]⟩
  | swap x y l0 =>
    intro l hl
    obtain ⟨a, l, rfl, rfl, hl'⟩ := List.map_eq_cons_iff.1 hl
    obtain ⟨b, l, rfl, rfl, rfl⟩ := List.map_eq_cons_iff.1 hl'
    exact ⟨b :: a :: l, .swap .., rfl⟩
  | trans _ _ ih1 ih2 =>
    intro l hl
    obtain ⟨l1, h1, h2⟩ := ih2 l hl
    obtain ⟨l2, h3, h4⟩ := ih1 l1 h2
    exact ⟨l2, h3.trans h1, h4⟩

theorem event_map (t : State (K × Option Nat) V) (i : Nat) : event prog (mapSt Prod.fst t) i = (event (own nan prog) t i).map (mapEv Prod.fst) := by
  have hd : ∀ p, deref prog p = deref (own nan prog) p := fun p => deref_map (fun j => own_map j) p
  have hpc : (mapSt Prod.fst t).pc i = mapPC Prod.fst (t.pc i) := rfl
  unfold event
  cases hc : t.pc i with
  | rng es acc =>
    rcases es with _ | ⟨⟨k, e⟩, es⟩
    · simp only [hpc, hc, mapPC]; rfl
    · simp only [hpc, hc, mapPC, mapL, List.map_cons]
      have : (mapSt Prod.fst t).sh.ent e = t.sh.ent e := rfl
      rw [this, hd]
      cases deref (own nan prog) (t.sh.ent e) <;> rfl
  | _ => simp only [hpc, hc, mapPC]; rfl

/-- C147: whatever happens with NaN keys, happens with keys that are like all others, if the NaN of each call is a key of its own. -/
theorem rwmap_nan {h : List (Ev K V)} {s : State K V} (hx : NExec nan eqv prog h s) :
    ∃ h' t, Exec eqv (own nan prog) h' t ∧ h = h'.map (mapEv Prod.fst) ∧ s = mapSt Prod.fst t := by
  induction hx with
  | init => exact ⟨[], State.init, .init, rfl, rfl⟩
  | step hx hs ih =>
    obtain ⟨h', t, hx', rfl, rfl⟩ := ih
    obtain ⟨i, ord, go, hord, hn, rfl⟩ := hs
    obtain ⟨g, I, _⟩ := exec_inv hx'
    have hl : ∀ l : List ((K × Option Nat) × Nat), ∃ l', l'.Perm l ∧ mapL Prod.fst l' = ord (mapL Prod.fst l) :=
      fun l => lift_perm _ (hord (mapL Prod.fst l)) l rfl
    choose ord' ho1 ho2 using hl
    rw [nnext_map I (keysOk hx') go i (ho2 _)] at hn
    obtain ⟨t', hn', rfl⟩ := Option.map_eq_some_iff.1 hn
    exact ⟨h' ++ event (own nan prog) t i, t', .step hx' ⟨i, ord', go, ho1, hn', rfl⟩, by rw [List.map_append, event_map (nan := nan)], rfl⟩

/-- A step of the other machine is one of this one. -/
theorem nnext_back {h' : List (Ev (K × Option Nat) V)} {t t' : State (K × Option Nat) V} (hx : Exec eqv (own nan prog) h' t)
    {ord' : List ((K × Option Nat) × Nat) → List ((K × Option Nat) × Nat)} (ho : ∀ l, (ord' l).Perm l) {go : Bool} {i : Nat}
    (hn : next eqv (own nan prog) ord' go t i = some t') :
    ∃ ord : List (K × Nat) → List (K × Nat), (∀ l, (ord l).Perm l) ∧ nnext nan eqv prog ord go (mapSt Prod.fst t) i = some (mapSt Prod.fst t') := by
  refine ⟨fun l => if l = mapL Prod.fst (used t i) then mapL Prod.fst (ord' (used t i)) else l, fun l => ?_, ?_⟩
  · by_cases hl : l = mapL Prod.fst (used t i)
    · simp only [if_pos hl]; rw [hl]; exact (ho _).map _
    · simp only [if_neg hl]; exact .refl _
  · obtain ⟨g, I, _⟩ := exec_inv hx
    rw [nnext_map I (keysOk hx) go i (by rw [if_pos rfl]), hn]
    rfl

/-- C147: and the other way round: the executions with NaN keys are exactly those with a key of its own for the NaN of each call. -/
theorem rwmap_nan_iff {h : List (Ev K V)} {s : State K V} : NExec nan eqv prog h s ↔
    ∃ h' t, Exec eqv (own nan prog) h' t ∧ h = h'.map (mapEv Prod.fst) ∧ s = mapSt Prod.fst t := by
  refine ⟨rwmap_nan, ?_⟩
  rintro ⟨h', t, hx, rfl, rfl⟩
  induction hx with
  | init => exact .init
  | step hx hs ih =>
    obtain ⟨i, ord', go, ho, hn, rfl⟩ := hs
    obtain ⟨ord, ho', hn'⟩ := nnext_back hx ho hn
    rw [List.map_append]
    exact .step ih ⟨i, ord, go, ho', hn', (event_map _ i).symm⟩

/-- A step of a call in progress, cf. `Goes`. -/
def NGoes (nan : K → Bool) (eqv : V → V → Option Bool) (prog : Nat → Op K V) (s s' : State K V) : Prop :=
  ∃ i ord go, s.pc i ≠ .idle ∧ (∀ l : List (K × Nat), (ord l).Perm l) ∧ nnext nan eqv prog ord go s i = some s'

theorem idle_map {c : PC (K × Option Nat) V} : mapPC Prod.fst c = .idle ↔ c = .idle := by cases c <;> simp [mapPC]

theorem quiescent_map {t : State (K × Option Nat) V} : Quiescent (mapSt Prod.fst t) ↔ Quiescent t := by
  have hpc : ∀ a, (mapSt Prod.fst t).pc a = mapPC Prod.fst (t.pc a) := fun _ => rfl
  refine forall_congr' fun a => ?_
  rw [hpc]
  cases t.pc a <;> simp [mapPC]

/-- C147: calls come to an end, whatever the scheduler does, if no new ones are made, cf. C131; in particular there is no deadlock: a run in which some
call in progress makes the next step as long as one can comes to a state in which all calls have returned. -/
theorem rwmap_nan_ends {h : List (Ev K V)} {s : State K V} (hx : NExec nan eqv prog h s) (f : Nat → State K V) (h0 : f 0 = s)
    (hf : ∀ n, (∃ s', NGoes nan eqv prog (f n) s') → NGoes nan eqv prog (f n) (f (n + 1))) : ∃ n, Quiescent (f n) := by
  obtain ⟨h', t, hx', rfl, rfl⟩ := rwmap_nan hx
  obtain ⟨is, his⟩ := exec_finite hx'
  have acc := goes_wf (eqv := eqv) (prog := own nan prog) (List.nodup_dedup is) t (fun i hi => his i (by simpa using hi))
  have : ∀ t, Acc (fun s' s => Goes eqv (own nan prog) s s') t → (∃ h', Exec eqv (own nan prog) h' t) → ∀ n, f n = mapSt Prod.fst t →
      ∃ n, Quiescent (f n) := by
    intro t acc
    induction acc with
    | intro t _ ih =>
      rintro ⟨h', hx⟩ n hn
      by_cases hq : Quiescent t
      · exact ⟨n, by rw [hn, quiescent_map]; exact hq⟩
      · obtain ⟨t1, i, ord', go, hi, ho, h1⟩ := rwmap_goes hx hq
        obtain ⟨ord, ho', hn'⟩ := nnext_back hx ho h1
        have hg : NGoes nan eqv prog (f n) (mapSt Prod.fst t1) := by
          rw [hn]
          exact ⟨i, ord, go, fun hc => hi (idle_map.1 hc), ho', hn'⟩
        obtain ⟨j, ord2, go2, hj, ho2, h2⟩ := hf n ⟨_, hg⟩
        rw [hn] at hj h2
        have hl : ∀ l : List ((K × Option Nat) × Nat), ∃ l', l'.Perm l ∧ mapL Prod.fst l' = ord2 (mapL Prod.fst l) :=
          fun l => lift_perm _ (ho2 (mapL Prod.fst l)) l rfl
        choose ord3 ho3 ho4 using hl
        obtain ⟨g, I, _⟩ := exec_inv hx
        rw [nnext_map I (keysOk hx) go2 j (ho4 _)] at h2
        obtain ⟨t2, h3, h4⟩ := Option.map_eq_some_iff.1 h2
        exact ih t2 ⟨j, ord3, go2, fun hc => hj (idle_map.2 hc), ho3, h3⟩ ⟨_, .step hx ⟨j, ord3, go2, ho3, h3, rfl⟩⟩ (n + 1) h4.symm
  exact this t acc ⟨_, hx'⟩ 0 h0

/-- C147: no call panics for a reason other than values that cannot be compared, cf. C03. -/
theorem rwmap_nan_no_panic {h : List (Ev K V)} {s : State K V} (hx : NExec nan eqv prog h s) (i : Nat) : s.pc i ≠ .panic := by
  obtain ⟨h', t, hx', _, rfl⟩ := rwmap_nan hx
  intro hp
  refine rwmap_no_panic hx' i ?_
  have hpc : (mapSt Prod.fst t).pc i = mapPC Prod.fst (t.pc i) := rfl
  rw [hpc] at hp
  cases hc : t.pc i <;> rw [hc] at hp <;> simp [mapPC] at hp ⊢

/-- What a call returns that does not find its key. -/
def absent : Op K V → Res K V
  | .load _ | .swap _ _ | .loadAndDelete _ => .opt none
  | .loadOrStore _ v => .los v false
  | .compareAndSwap _ _ _ | .compareAndDelete _ _ => .bool false
  | .clear | .range | .len => .unit

theorem own_writes {i j : Nat} {k : K} (hk : nan k = true) (hji : j ≠ i) (hw : (own nan prog j).writes (tag nan i k) = true) : prog j = .clear := by
  have : ∀ k', tag nan j k' = tag nan i k → False := by
    intro k' he
    obtain ⟨rfl, h⟩ := tag_inj he
    exact hji (h hk)
  unfold own at hw
  cases hp : prog j <;> simp only [hp, mapOp, Op.writes, Op.stores, decide_eq_true_eq, reduceCtorEq] at hw
  all_goals first | rfl | exact (this _ hw).elim

theorem own_isMap (i : Nat) : (own nan prog i).isMap = (prog i).isMap := by unfold own; cases prog i <;> rfl

/-- No other call stores anything under the NaN of call `i`. -/
theorem effects_absent {i : Nat} {k : K} (hk : nan k = true) {M : List (LEv (K × Option Nat) V)} (hM : .eff i ∉ M) :
    ∀ A : AMap (K × Option Nat) V, A (tag nan i k) = none → effects eqv (own nan prog) M A (tag nan i k) = none := by
  induction M with
  | nil => exact fun A hA => hA
  | cons x M ih =>
    intro A hA
    simp only [List.mem_cons, not_or] at hM
    cases x with
    | eff j =>
      have hji : j ≠ i := fun h => hM.1 (by rw [h])
      refine ih hM.2 _ ?_
      cases hw : (own nan prog j).writes (tag nan i k) with
      | false => rw [apply_other hw, hA]
      | true => simp only [own, own_writes hk hji hw, mapOp, apply]; rfl
    | _ => exact ih hM.2 A hA

theorem mem_ret_map {h' : List (Ev (K × Option Nat) V)} {i : Nat} {r : Res K V} (hr : .ret i r ∈ h'.map (mapEv Prod.fst)) :
    ∃ r', .ret i r' ∈ h' ∧ r = mapRes Prod.fst r' := by
  obtain ⟨e, he, h1⟩ := List.mem_map.1 hr
  cases e <;> simp only [mapEv, reduceCtorEq, Ev.ret.injEq] at h1
  obtain ⟨rfl, rfl⟩ := h1
  exact ⟨_, he, rfl⟩

/-- C147: a call with a NaN returns, if it does, what it returns when the map does not have its key; it does not panic. -/
theorem rwmap_nan_absent {h : List (Ev K V)} {s : State K V} (hx : NExec nan eqv prog h s) {i : Nat} {k : K} (hk : (prog i).key? = some k)
    (hn : nan k = true) {r : Res K V} (hr : .ret i r ∈ h) : r = absent (prog i) := by
  obtain ⟨h', t, hx', rfl, rfl⟩ := rwmap_nan hx
  obtain ⟨r', hr', rfl⟩ := mem_ret_map hr
  obtain ⟨L, HL⟩ := rwmap_linearizable hx'
  have hm : (own nan prog i).isMap = true := by
    rw [own_isMap]
    cases hp : prog i <;> simp_all [Op.isMap, Op.key?]
  obtain ⟨M, M', hL, rfl⟩ := ret_eff HL hm hr'
  have h0 := effects_absent (eqv := eqv) (prog := prog) hn (eff_once HL hm hL).2.1 AMap.empty rfl
  cases hp : prog i <;> simp only [hp, Op.key?, Option.some.injEq, reduceCtorEq] at hk
  all_goals subst hk; simp only [resultOn, own, hp, mapOp, apply, h0, mapRes, absent]

/-- The pair stored by a call that is the `Store`, the `Swap` or the `LoadOrStore` of a NaN. -/
def stores (nan : K → Bool) : Op K V → Option (K × V)
  | .swap k v | .loadOrStore k v => if nan k then some (k, v) else none
  | _ => none

theorem own_stores {i : Nat} {k : K} {v : V} (h : stores nan (prog i) = some (k, v)) :
    nan k = true ∧ (own nan prog i = .swap (tag nan i k) v ∨ own nan prog i = .loadOrStore (tag nan i k) v) := by
  unfold own
  cases hp : prog i <;> simp only [hp, stores, reduceCtorEq] at h
  all_goals
    split at h <;> simp only [Option.some.injEq, Prod.mk.injEq, reduceCtorEq] at h
    obtain ⟨rfl, rfl⟩ := h
    rename_i hn
    exact ⟨hn, by simp [mapOp]⟩

/-- What the map has for the NaN of call `i`, after it has taken effect. -/
theorem effects_stored {i : Nat} {k : K} {v : V} (h : stores nan (prog i) = some (k, v)) {M : List (LEv (K × Option Nat) V)}
    (hc : ∀ c, .eff c ∈ M → prog c ≠ .clear) : ∀ A : AMap (K × Option Nat) V,
      ((.eff i ∈ M ∧ A (tag nan i k) = none) ∨ A (tag nan i k) = some v) → effects eqv (own nan prog) M A (tag nan i k) = some v := by
  obtain ⟨hn, ho⟩ := own_stores h
  induction M with
  | nil => intro A hA; rcases hA with ⟨h1, _⟩ | h1; cases h1; exact h1
  | cons x M ih =>
    intro A hA
    have hc' : ∀ c, .eff c ∈ M → prog c ≠ .clear := fun c hcm => hc c (List.mem_cons_of_mem _ hcm)
    cases x with
    | eff j =>
      refine ih hc' _ ?_
      by_cases hji : j = i
      · subst hji
        right
        rcases ho with ho | ho <;> simp only [ho, apply]
        · simp [AMap.set]
        · rcases hA with ⟨_, hA⟩ | hA <;> simp only [hA]
          simp [AMap.set]
      · have hw : (own nan prog j).writes (tag nan i k) = false := by
          by_contra hw
          exact hc j List.mem_cons_self (own_writes hn hji (by simpa using hw))
        rw [apply_other hw]
        rcases hA with ⟨h1, h2⟩ | h2
        · exact .inl ⟨by simpa [Ne.symm hji] using h1, h2⟩
        · exact .inr h2
    | inv j | visit j _ _ | ret j _ =>
      refine ih hc' A ?_
      rcases hA with ⟨h1, h2⟩ | h2
      · exact .inl ⟨by simpa using h1, h2⟩
      · exact .inr h2

/-- C147: a NaN that has been stored stays: unless `Clear` is called, a `Range` call visits every such pair, if it began after the calls had
returned that stored them and was not stopped. -/
theorem rwmap_nan_stays {a b : List (Ev K V)} {s : State K V} (hx : NExec nan eqv prog (a ++ b) s) (hc : ∀ c, .inv c ∈ a ++ b → prog c ≠ .clear)
    {j : Nat} (hj : prog j = .range) {es : List (K × V)} (hr : .ret j (.visited es false) ∈ a ++ b) (hja : .inv j ∉ a)
    {I : List Nat} (hI : I.Nodup) (hs : ∀ i ∈ I, (stores nan (prog i)).isSome ∧ ∃ r, .ret i r ∈ a) :
    (I.filterMap fun i => stores nan (prog i)).Subperm es := by
  obtain ⟨h', t, hx', hh, rfl⟩ := rwmap_nan hx
  rw [hh] at hr
  obtain ⟨r', hr', he⟩ := mem_ret_map hr
  obtain ⟨L, HL, _, HR⟩ := rwmap_range hx'
  have hj' : own nan prog j = .range := by simp [own, hj, mapOp]
  obtain ⟨es', stop, rfl, hnd, hin, hout⟩ := HR j r' hj' hr'
  simp only [mapRes, Res.visited.injEq] at he
  obtain ⟨rfl, rfl⟩ := he
  obtain ⟨a', b', rfl, ha, hb⟩ := List.append_eq_map_iff.1 hh
  obtain ⟨La, Lb, rfl, hLa, hLb⟩ := List.filterMap_eq_append_iff.1 HL.1
  -- every pair is there
  have key : ∀ i ∈ I, ∀ k v, stores nan (prog i) = some (k, v) → (tag nan i k, v) ∈ es' := by
    intro i hi k v hst
    obtain ⟨_, r, hra⟩ := hs i hi
    rw [← ha] at hra
    obtain ⟨r1, hr1, rfl⟩ := mem_ret_map hra
    have hm : (own nan prog i).isMap = true := by rcases (own_stores hst).2 with h | h <;> rw [h] <;> rfl
    -- it has taken effect by then
    have heff : .eff i ∈ La := by
      have hrl : .ret i r1 ∈ La := by
        rw [← hLa, List.mem_filterMap] at hr1
        obtain ⟨x, hx, hxe⟩ := hr1
        cases x <;> simp only [LEv.ev?, Option.some.injEq, reduceCtorEq, Ev.ret.injEq] at hxe
        obtain ⟨rfl, rfl⟩ := hxe
        exact hx
      have h1 := (HL.2 i hm).1
      simp only [List.filter_append] at h1
      have h2 : LEv.ret i r1 ∈ La.filter (·.call == i) := List.mem_filter.2 ⟨hrl, by simp [LEv.call]⟩
      have h3 : LEv.eff i ∈ La.filter (·.call == i) := by
        generalize La.filter (·.call == i) = X at h1 h2
        generalize Lb.filter (·.call == i) = Y at h1
        rcases X with _ | ⟨x1, _ | ⟨x2, X⟩⟩
        · cases h2
        · simp only [List.mem_singleton] at h2
          subst h2
          simp at h1
        · rcases h1 with h1 | h1 | h1 | ⟨r2, h1⟩
          · cases h1
          · simp at h1
          · simp only [List.cons_append, List.cons.injEq] at h1
            simp [h1.2.1]
          · simp only [List.cons_append, List.cons.injEq] at h1
            simp [h1.2.1]
      exact (List.mem_filter.1 h3).1
    have hval : ∀ L1 L2, La ++ Lb = L1 ++ L2 → .inv j ∈ L1 → effects eqv (own nan prog) L1 AMap.empty (tag nan i k) = some v := by
      intro L1 L2 hL hjL
      have hsub : La ⊆ L1 := by
        rcases List.append_eq_append_iff.1 hL with ⟨c, rfl, _⟩ | ⟨c, rfl, _⟩
        · exact List.subset_append_left _ _
        · exfalso
          apply hja
          rw [← ha]
          refine List.mem_map.2 ⟨.inv j, ?_, rfl⟩
          rw [← hLa, List.mem_filterMap]
          exact ⟨.inv j, List.mem_append_left _ hjL, rfl⟩
      refine effects_stored hst ?_ _ (.inl ⟨hsub heff, rfl⟩)
      intro c hcm hcl
      have hmc : (own nan prog c).isMap = true := by rw [own_isMap, hcl]; rfl
      obtain ⟨M, M', rfl⟩ := List.append_of_mem hcm
      have := (eff_once HL hmc (by rw [hL, List.append_assoc, List.cons_append])).1
      refine hc c ?_ hcl
      rw [hh]
      refine List.mem_map.2 ⟨.inv c, ?_, rfl⟩
      rw [← mem_inv_of_lin HL, hL]
      simp [this]
    by_cases hmem : tag nan i k ∈ es'.map Prod.fst
    · obtain ⟨⟨k1, v1⟩, hp, rfl⟩ := List.mem_map.1 hmem
      obtain ⟨L1, L2, h1, h2, _, h4⟩ := hin _ _ hp
      have := hval L1 L2 h1 h2
      rw [this] at h4
      cases h4
      exact hp
    · obtain ⟨L1, L2, h1, h2, _, h4⟩ := hout rfl _ hmem
      rw [hval L1 L2 h1 h2] at h4
      cases h4
  have h1 : (I.filterMap fun i => (stores nan (prog i)).map fun p => (tag nan i p.1, p.2)).Subperm es' := by
    refine List.subperm_of_subset ?_ ?_
    · refine List.Nodup.filterMap ?_ hI
      rintro i i' x hx hx'
      simp only [Option.mem_def, Option.map_eq_some_iff] at hx hx'
      obtain ⟨⟨k, v⟩, h1, rfl⟩ := hx
      obtain ⟨⟨k', v'⟩, h1', h2⟩ := hx'
      simp only [Prod.mk.injEq] at h2
      exact ((tag_inj h2.1).2 ((own_stores h1').1)).symm
    · intro x hx
      obtain ⟨i, hi, h1⟩ := List.mem_filterMap.1 hx
      simp only [Option.map_eq_some_iff] at h1
      obtain ⟨⟨k, v⟩, h1, rfl⟩ := h1
      exact key i hi k v h1
  obtain ⟨l, hl1, hl2⟩ := h1
  have h2 : List.Subperm _ _ := ⟨l.map fun p => (p.1.1, p.2), hl1.map _, hl2.map _⟩
  simpa [List.map_filterMap, Function.comp_def, tag] using h2

/-- Where the values of NaNs come from. -/
theorem effects_from {P : Nat → Prop} {M : List (LEv (K × Option Nat) V)} (hM : ∀ i, .eff i ∈ M → P i) : ∀ A : AMap (K × Option Nat) V,
    (∀ q v, A q = some v → nan q.1 = true → ∃ i, q = tag nan i q.1 ∧ stores nan (prog i) = some (q.1, v) ∧ P i) →
    ∀ q v, effects eqv (own nan prog) M A q = some v → nan q.1 = true → ∃ i, q = tag nan i q.1 ∧ stores nan (prog i) = some (q.1, v) ∧ P i := by
  induction M with
  | nil => exact fun A hA => hA
  | cons x M ih =>
    intro A hA
    have hM' := fun i hi => hM i (List.mem_cons_of_mem _ hi)
    cases x with
    | eff i =>
      refine ih hM' _ ?_
      intro q v hq hn
      have hset : ∀ k (o : Option V), A.set (tag nan i k) o q = some v → (∀ w, o = some w → stores nan (prog i) = some (k, w) ∨ nan k = false) →
          ∃ i, q = tag nan i q.1 ∧ stores nan (prog i) = some (q.1, v) ∧ P i := by
        intro k o h1 h2
        by_cases hqk : q = tag nan i k
        · subst hqk
          simp only [AMap.set, if_true] at h1
          rcases h2 v h1 with h2 | h2
          · exact ⟨i, rfl, h2, hM i List.mem_cons_self⟩
          · simp only [tag] at hn
            rw [h2] at hn; cases hn
        · simp only [AMap.set, if_neg hqk] at h1
          exact hA q v h1 hn
      unfold own at hq
      cases hp : prog i with
      | load k => simp only [hp, mapOp, apply] at hq; exact hA q v hq hn
      | swap k w =>
        simp only [hp, mapOp, apply] at hq
        refine hset _ _ hq fun w' hw => ?_
        cases hw
        cases hk : nan k <;> simp [hp, stores, hk]
      | loadOrStore k w =>
        simp only [hp, mapOp, apply] at hq
        split at hq
        · exact hA q v hq hn
        · refine hset _ _ hq fun w' hw => ?_
          cases hw
          cases hk : nan k <;> simp [hp, stores, hk]
      | loadAndDelete k => simp only [hp, mapOp, apply] at hq; exact hset _ _ hq nofun
      | compareAndSwap k o w =>
        simp only [hp, mapOp, apply] at hq
        split at hq
        · rename_i w0 hw0
          split at hq
          · refine hset _ _ hq fun w' hw => ?_
            cases hk : nan k
            · exact .inr rfl
            · obtain ⟨i', h1, h2, _⟩ := hA _ _ hw0 hk
              cases (tag_inj h1).2 hk
              simp [hp, stores] at h2
          · exact hA q v hq hn
          · exact hA q v hq hn
        · exact hA q v hq hn
      | compareAndDelete k o =>
        simp only [hp, mapOp, apply] at hq
        split at hq
        · split at hq
          · exact hset _ _ hq nofun
          · exact hA q v hq hn
          · exact hA q v hq hn
        · exact hA q v hq hn
      | clear => simp only [hp, mapOp, apply] at hq; cases hq
      | range => simp only [hp, mapOp, apply] at hq; exact hA q v hq hn
      | len => simp only [hp, mapOp, apply] at hq; exact hA q v hq hn
    | inv j | visit j _ _ | ret j _ => exact ih hM' A hA

def inMap? (prog : Nat → Op K V) : LEv (K × Option Nat) V → Bool
  | .eff i => (prog i).isMap
  | _ => true

theorem effects_isMap (M : List (LEv (K × Option Nat) V)) :
    ∀ A : AMap (K × Option Nat) V, effects eqv (own nan prog) (M.filter (inMap? prog)) A = effects eqv (own nan prog) M A := by
  induction M with
  | nil => exact fun _ => rfl
  | cons x M ih =>
    intro A
    cases x with
    | eff i =>
      have he : inMap? prog (.eff i : LEv (K × Option Nat) V) = (prog i).isMap := rfl
      rw [List.filter_cons, he]
      cases hm : (prog i).isMap
      · simp only [Bool.false_eq_true, if_false]
        rw [ih]
        simp only [effects]
        congr 1
        unfold own
        cases hp : prog i <;> simp_all [Op.isMap, mapOp, apply]
      · simp only [if_true]
        exact ih _
    | _ => exact ih A

/-- C147: conversely, the pairs with NaNs that a `Range` call has visited are the pairs of as many different calls that have stored them. -/
theorem rwmap_nan_visited {h : List (Ev K V)} {s : State K V} (hx : NExec nan eqv prog h s) {j : Nat} (hj : prog j = .range)
    {es : List (K × V)} {stop : Bool} (hr : .ret j (.visited es stop) ∈ h) :
    ∃ I : List Nat, I.Nodup ∧ (∀ i ∈ I, .inv i ∈ h) ∧ (es.filter fun p => nan p.1).map some = I.map fun i => stores nan (prog i) := by
  obtain ⟨h', t, hx', rfl, rfl⟩ := rwmap_nan hx
  obtain ⟨r', hr', he⟩ := mem_ret_map hr
  obtain ⟨L, HL, _, HR⟩ := rwmap_range hx'
  have hj' : own nan prog j = .range := by simp [own, hj, mapOp]
  obtain ⟨es', stop, rfl, hnd, hin, -⟩ := HR j r' hj' hr'
  simp only [mapRes, Res.visited.injEq] at he
  obtain ⟨rfl, rfl⟩ := he
  have key : ∀ p ∈ es', nan p.1.1 = true → ∃ i, p.1 = tag nan i p.1.1 ∧ stores nan (prog i) = some (p.1.1, p.2) ∧
      .inv i ∈ h'.map (mapEv Prod.fst) := by
    intro p hp hn
    obtain ⟨L1, L2, h1, _, _, h4⟩ := hin p.1 p.2 hp
    refine effects_from (P := fun i => .inv i ∈ h'.map (mapEv Prod.fst)) (nan := nan) (prog := prog) (eqv := eqv) (M := L1.filter (inMap? prog)) ?_ AMap.empty nofun p.1 p.2 ?_ hn
    · intro i hi
      obtain ⟨hi1, hi2⟩ := List.mem_filter.1 hi
      obtain ⟨M, M', rfl⟩ := List.append_of_mem hi1
      have := (eff_once HL (by rw [own_isMap]; exact hi2) (by rw [h1, List.append_assoc, List.cons_append])).1
      refine List.mem_map.2 ⟨.inv i, ?_, rfl⟩
      rw [← mem_inv_of_lin HL, h1]
      simp [this]
    · rw [effects_isMap, h4]
  -- the calls, in the order in which their pairs were visited
  have : ∀ l : List ((K × Option Nat) × V), (l.map Prod.fst).Nodup → l ⊆ es' →
      ∃ I : List Nat, I.Nodup ∧ (∀ i ∈ I, .inv i ∈ h'.map (mapEv Prod.fst) ∧ ∃ p ∈ l, p.1 = tag nan i p.1.1 ∧ nan p.1.1 = true) ∧
        ((l.map fun p => (p.1.1, p.2)).filter fun p => nan p.1).map some = I.map fun i => stores nan (prog i) := by
    intro l
    induction l with
    | nil => exact fun _ _ => ⟨[], .nil, by simp, rfl⟩
    | cons p l ih =>
      intro hnd hsub
      simp only [List.map_cons, List.nodup_cons] at hnd
      obtain ⟨I, h1, h2, h3⟩ := ih hnd.2 fun x hx => hsub (List.mem_cons_of_mem _ hx)
      cases hn : nan p.1.1 with
      | false =>
        refine ⟨I, h1, fun i hi => ?_, ?_⟩
        · obtain ⟨a, q, hq, b⟩ := h2 i hi
          exact ⟨a, q, List.mem_cons_of_mem _ hq, b⟩
        · rw [List.map_cons, List.filter_cons_of_neg (by simp [hn]), h3]
      | true =>
        obtain ⟨i, hi1, hi2, hi3⟩ := key p (hsub List.mem_cons_self) hn
        refine ⟨i :: I, List.nodup_cons.2 ⟨fun hi => ?_, h1⟩, fun i' hi' => ?_, ?_⟩
        · obtain ⟨_, q, hq, hq1, hq2⟩ := h2 i hi
          have hst : q.1.1 = p.1.1 := by
            obtain ⟨i2, h1, h2, _⟩ := key q (hsub (List.mem_cons_of_mem _ hq)) hq2
            have : i = i2 := (tag_inj (hq1.symm.trans h1)).2 hq2
            subst this
            rw [hi2] at h2
            simp only [Option.some.injEq, Prod.mk.injEq] at h2
            exact h2.1.symm
          refine hnd.1 (List.mem_map.2 ⟨q, hq, ?_⟩)
          rw [hq1, hi1, hst]
        · rcases List.mem_cons.1 hi' with rfl | hi'
          · exact ⟨hi3, p, List.mem_cons_self, hi1, hn⟩
          · obtain ⟨a, q, hq, b⟩ := h2 i' hi'
            exact ⟨a, q, List.mem_cons_of_mem _ hq, b⟩
        · rw [List.map_cons, List.filter_cons_of_pos (by simp [hn]), List.map_cons, List.map_cons, h3, hi2]
  obtain ⟨I, h1, h2, h3⟩ := this es' hnd fun _ h => h
  exact ⟨I, h1, fun i hi => (h2 i hi).1, h3⟩

/-- C147: in a quiescent state `Len` counts every NaN that has been stored, if no `Clear` overlapped another call: it is the number of keys
of a map in which the NaN of each call is a key of its own. -/
theorem rwmap_nan_len {h : List (Ev K V)} {s : State K V} (hx : NExec nan eqv prog h s) (hq : Quiescent s) (hal : ClearAlone prog h) :
    ∃ h' L, h = h'.map (mapEv Prod.fst) ∧ Linearizes eqv (own nan prog) L h' ∧
      ∃ n : Nat, (effects eqv (own nan prog) L AMap.empty).Card n ∧ s.sh.len = n := by
  obtain ⟨h', t, hx', rfl, rfl⟩ := rwmap_nan hx
  obtain ⟨g, I, hg⟩ := exec_inv hx'
  have hpend : ∀ (h1 : List (Ev (K × Option Nat) V)) c, pendingIn h1 c → pendingIn (h1.map (mapEv Prod.fst)) c := by
    rintro h1 c ⟨ha, hb⟩
    refine ⟨List.mem_map.2 ⟨_, ha, rfl⟩, fun r hr => ?_⟩
    obtain ⟨r', hr', _⟩ := mem_ret_map hr
    exact hb r' hr'
  have hal' : ClearAlone (own nan prog) h' := by
    rintro h1 h2 rfl c j hc hj hjc hp hpj
    refine hal _ _ List.map_append c j ?_ ?_ hjc (hpend _ _ hp) (hpend _ _ hpj)
    · rw [own_map (nan := nan) (prog := prog) c, hc]; rfl
    · rw [← own_isMap (nan := nan), hj]
  have hset : Settled (own nan prog) t := by
    intro a _
    have hpc : (mapSt Prod.fst t).pc a = mapPC Prod.fst (t.pc a) := rfl
    rcases hq a with h | ⟨r, h⟩ <;> rw [hpc] at h
    · left
      cases hc : t.pc a <;> rw [hc] at h <;> simp [mapPC] at h ⊢
    · right; right
      cases hc : t.pc a <;> rw [hc] at h <;> simp [mapPC] at h ⊢
  obtain ⟨n, h1, h2⟩ := exec_len hx' hal' hset I hg
  subst hg
  exact ⟨_, _, rfl, I.linearizes, n, by rw [effects_levs]; exact h1, h2⟩

/-! ## Examples -/

/-- Run a schedule, cf. `sched`; calls that cannot make a step are passed over. -/
def nsched (nan : K → Bool) (eqv : V → V → Option Bool) (prog : Nat → Op K V) :
    List Nat → State K V → List (Ev K V) → State K V × List (Ev K V)
  | [], s, h => (s, h)
  | i :: is, s, h => match nnext nan eqv prog id true s i with
    | some s' => nsched nan eqv prog is s' (h ++ event prog s i)
    | none => nsched nan eqv prog is s h

theorem nsched_exec : ∀ {is : List Nat} {s : State K V} {h : List (Ev K V)}, NExec nan eqv prog h s → ∀ {h'},
    (nsched nan eqv prog is s h).2 = h' → ∃ s', NExec nan eqv prog h' s' := by
  intro is
  induction is with
  | nil => rintro s h hx _ rfl; exact ⟨s, hx⟩
  | cons i is ih =>
    intro s h hx h' he
    simp only [nsched] at he
    split at he
    next t ht => exact ih (.step hx ⟨i, id, true, fun _ => .refl _, ht, rfl⟩) he
    next => exact ih hx he

/-- Key 9 is NaN. It is stored twice, and `Load` and `LoadAndDelete` do not find it; `Range` visits it twice, `Len` counts it twice, `Clear` removes it. -/
def nanProg : Nat → Op Nat Nat
  | 0 => .swap 9 5
  | 1 => .loadOrStore 9 6
  | 2 => .load 9
  | 3 => .loadAndDelete 9
  | 4 => .range
  | 5 => .len
  | 6 => .clear
  | _ => .len

def nanRun : List Nat := rep 15 0 ++ rep 15 1 ++ rep 15 2 ++ rep 15 3 ++ rep 15 4 ++ rep 15 5 ++ rep 15 6 ++ rep 15 7

theorem nanRun_hist : (nsched (· == 9) (fun a b => some (a == b)) nanProg nanRun State.init []).2 =
    [.inv 0, .ret 0 (.opt none), .inv 1, .ret 1 (.los 6 false), .inv 2, .ret 2 (.opt none), .inv 3, .ret 3 (.opt none), .inv 4,
      .visit 4 9 5, .visit 4 9 6, .ret 4 (.visited [(9, 5), (9, 6)] false), .inv 5, .ret 5 (.int 2), .inv 6, .ret 6 .unit, .inv 7,
      .ret 7 (.int 0)] := rfl

/-- The two stores and `Range` one after the other: by `rwmap_nan_stays`, both pairs are among the visited ones. -/
example : [(9, 5), (9, 6)].Subperm [(9, 5), (9, 6)] := by
  obtain ⟨s, hx⟩ := nsched_exec (is := rep 15 0 ++ rep 15 1 ++ rep 15 4) (nan := (· == 9)) (eqv := fun a b => some (a == b)) (prog := nanProg)
    .init (h' := [.inv 0, .ret 0 (.opt none), .inv 1, .ret 1 (.los 6 false)] ++
      [.inv 4, .visit 4 9 5, .visit 4 9 6, .ret 4 (.visited [(9, 5), (9, 6)] false)]) rfl
  exact rwmap_nan_stays hx (fun c hc => by simp at hc; rcases hc with rfl | rfl | rfl <;> simp [nanProg]) (j := 4) rfl (by simp) (by simp)
    (I := [0, 1]) (by decide) (by simp [stores, nanProg])

/-- Two stores of NaN at the same time, step by step in turn, and then `Range`: two pairs. -/
example : ((nsched (· == 9) (fun a b => some (a == b)) nanProg ((rep 30 0).flatMap (fun _ => [0, 1]) ++ rep 15 4 ++ rep 15 5) State.init []).2) =
    [.inv 0, .inv 1, .ret 0 (.opt none), .ret 1 (.los 6 false), .inv 4, .visit 4 9 5, .visit 4 9 6, .ret 4 (.visited [(9, 5), (9, 6)] false),
      .inv 5, .ret 5 (.int 2)] := rfl

/-- With a key that is equal to itself, one pair. -/
example : ((nsched (fun _ => false) (fun a b => some (a == b)) nanProg (rep 15 0 ++ rep 15 1 ++ rep 15 2 ++ rep 15 4) State.init []).2) =
    [.inv 0, .ret 0 (.opt none), .inv 1, .ret 1 (.los 5 true), .inv 2, .ret 2 (.opt (some 5)), .inv 4, .visit 4 9 5,
      .ret 4 (.visited [(9, 5)] false)] := rfl

end Verif.RWMap.Float
