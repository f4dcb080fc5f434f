import Verif.RWMap.Props
import Verif.SyncCache.Ends
/-!
# `synccache` over the steps of `RWMap`

The machine of `Model.lean` does every operation of the underlying map in one step. Here an operation of the map is a call of the `RWMap`
machine, taking its steps one by one, interleaved with all others: the two machines run side by side and meet where a call of the
map is made, where its `Range` calls the function it was given, and where it returns. The values in the map are the addresses of entries.

Simplified: when the function given to `RWMap.Range` returns false or panics, `Range` does nothing more with the map (rwmap.go lines 501-505), so
that call of the map is left unfinished.
-/
namespace Verif.SyncCache

deriving instance DecidableEq for RWMap.Op

variable {K V : Type}

/-- What the whole system does: a step of the cache's own, or an event of the map. -/
inductive Item (K V : Type) where
  | loc (e : Ev K V)
  | map (e : RWMap.Ev K Nat)

def Item.loc? : Item K V → Option (Ev K V)
  | .loc e => some e
  | .map _ => none

def Item.map? : Item K V → Option (RWMap.Ev K Nat)
  | .loc _ => none
  | .map e => some e

/-- The cache without the map (`st.m` is not used): `wait i` is the call of the map that thread `i` waits for. Inside a `Range` of the
map, `Iter.start` is the call, `Iter.rest` is not used. -/
structure Client (K V : Type) where
  st : State K V
  wait : Nat → Option Nat

def Client.init : Client K V := ⟨.init, fun _ => none⟩

/-- The call of the map: synccache.go lines 78, 82, 97, 110, 117, 133, 148, 69, 151, 158. `Store` is `Swap`, rwmap.go line 158. -/
def PC.mapOp (c : Cfg V) : PC K V → Option (RWMap.Op K Nat)
  | .stPut k a => some (.swap k a)
  | .ldGet k _ => some (.load k)
  | .losTry k _ _ a => some (.loadOrStore k a)
  | .delTry k | .ladTry k => some (.loadAndDelete k)
  | .cad k a _ => some (.compareAndDelete k a)
  | .clr => if c.hasCb then none else some .clear
  | .iStart _ => some .range
  | _ => none

/-- Inside a `Range` of the map, not in the function it was given. -/
def PC.isIter : PC K V → Bool
  | .iter _ => true
  | _ => false

/-- What follows a call of the map, by its result: synccache.go lines 78-79, 83-86, 98-101, 110-113, 118-120, 133-135, 148-149. -/
def PC.cont (c : Cfg V) : PC K V → RWMap.Res K Nat → PC K V
  | .stPut _ _, _ => .done .unit
  | .ldGet _ x, .opt none => .done (match x with | none => .nil | some _ => .bool false)
  | .ldGet k x, .opt (some a) => .chk k a (match x with | none => .load | some v => .cvd v)
  | .losTry _ _ _ a, .los _ false => .done (.entry a false)
  | .losTry k v d _, .los b true => .chk k b (.los v d)
  | .delTry _, .opt none => .done .unit
  | .delTry _, .opt (some a) => afterDel c a .del
  | .ladTry _, .opt none => .done .nil
  | .ladTry k, .opt (some a) => .chk k a .lad
  | .cad _ a aft, .bool true => afterDel c a aft
  | .cad _ _ aft, .bool false => aft.next false
  | .clr, _ => .done .unit
  | pc, _ => pc

variable [DecidableEq K]

/-- A step of the cache's own. -/
def Client.loc (c : Cfg V) (s : Client K V) (i : Nat) (inp : In K V) : Option (Client K V × Ev K V) :=
  if s.wait i = none ∧ (s.st.pc i).mapOp c = none ∧ (s.st.pc i).isIter = false then
    (step c [] s.st i inp).map fun x => (⟨x.1, s.wait⟩, x.2)
  else none

/-- Thread `i` takes part in an event of the map: it makes the call, its function is called, its call returns. -/
def Client.sync (c : Cfg V) (prog : Nat → RWMap.Op K Nat) (s : Client K V) (i : Nat) : RWMap.Ev K Nat → Option (Client K V)
  | .inv n =>
    if s.wait i = none ∧ (s.st.pc i).mapOp c = some (prog n) then
      match s.st.pc i with
      | .iStart kind => some ⟨s.st.go i (.iter ⟨kind, [], n⟩), s.wait⟩
      | _ => some ⟨s.st, Function.update s.wait i (some n)⟩
    else none
  | .visit n k a =>
    match s.wait i, s.st.pc i with
    | none, .iter ⟨kind, [], m⟩ => if m = n then some ⟨s.st.go i (Iter.visit ⟨kind, [], m⟩ k a), s.wait⟩ else none
    | _, _ => none
  | .ret n r =>
    match s.wait i with
    | some m => if m = n then some ⟨s.st.go i ((s.st.pc i).cont c r), Function.update s.wait i none⟩ else none
    | none =>
      match s.st.pc i, r with
      | .iter ⟨_, [], m⟩, .visited _ false => if m = n then some ⟨s.st.go i (.done .unit), s.wait⟩ else none
      | _, _ => none

/-- The comparison of pointers in `RWMap.CompareAndDelete`. -/
abbrev ptrEq (a b : Nat) : Option Bool := some (a == b)

/-- Executions of the whole: `prog n` is the `n`-th call of the map. -/
inductive Sys (c : Cfg V) (prog : Nat → RWMap.Op K Nat) : List (Item K V) → Client K V → RWMap.State K Nat → Prop where
  | init : Sys c prog [] .init .init
  | loc {T s m i inp s' e} : Sys c prog T s m → s.loc c i inp = some (s', e) → Sys c prog (T ++ [.loc e]) s' m
  | tau {T s m n ord m'} : Sys c prog T s m → (∀ l, (ord l).Perm l) → RWMap.next ptrEq prog ord true m n = some m' →
      RWMap.event prog m n = [] → Sys c prog T s m'
  | sync {T s m n ord m' e i s'} : Sys c prog T s m → (∀ l, (ord l).Perm l) → RWMap.next ptrEq prog ord true m n = some m' →
      RWMap.event prog m n = [e] → s.sync c prog i e = some s' → Sys c prog (T ++ [.map e]) s' m'

/-- What one can see of an execution from outside. -/
def Ev.visible : Ev K V → Bool
  | .tau _ | .put _ _ _ | .del _ _ _ | .wipe _ => false
  | _ => true

/-- Running a schedule: a step of thread `i` by itself, or of call `n` of the map, which is made by thread `i`. -/
inductive Cmd (K V : Type) where
  | loc (i : Nat) (inp : In K V)
  | map (i n : Nat)

def sysPlay (c : Cfg V) (prog : Nat → RWMap.Op K Nat) : List (Cmd K V) → List (Item K V) → Client K V → RWMap.State K Nat →
    Option (List (Item K V))
  | [], T, _, _ => some T
  | .loc i inp :: l, T, s, m =>
    match s.loc c i inp with
    | none => none
    | some (s', e) => sysPlay c prog l (T ++ [.loc e]) s' m
  | .map i n :: l, T, s, m =>
    match RWMap.next ptrEq prog id true m n with
    | none => none
    | some m' =>
      match RWMap.event prog m n with
      | [] => sysPlay c prog l T s m'
      | [e] =>
        match s.sync c prog i e with
        | none => none
        | some s' => sysPlay c prog l (T ++ [.map e]) s' m'
      | _ => none

theorem sysPlay_sys {c : Cfg V} {prog : Nat → RWMap.Op K Nat} {l : List (Cmd K V)} : ∀ {T s m}, Sys c prog T s m → ∀ {T'},
    sysPlay c prog l T s m = some T' → ∃ s' m', Sys c prog T' s' m' := by
  induction l with
  | nil => intro T s m h T' h'; cases h'; exact ⟨_, _, h⟩
  | cons x l ih =>
    intro T s m h T' h'
    cases x with
    | loc i inp =>
      simp only [sysPlay] at h'
      split at h'
      · cases h'
      · next hs => exact ih (h.loc hs) h'
    | map i n =>
      simp only [sysPlay] at h'
      split at h'
      · cases h'
      · next hm =>
        split at h'
        · next he => exact ih (h.tau (fun l => .refl l) hm he) h'
        · next he =>
          split at h'
          · cases h'
          · next hs => exact ih (h.sync (fun l => .refl l) hm he hs) h'
        · cases h'

/-- The two sides of an execution. -/
theorem Sys.map_exec {c : Cfg V} {prog : Nat → RWMap.Op K Nat} {T : List (Item K V)} {s : Client K V} {m : RWMap.State K Nat} (h : Sys c prog T s m) :
    RWMap.Exec ptrEq prog (T.filterMap Item.map?) m := by
  induction h with
  | init => exact .init
  | loc _ _ ih =>
    rw [List.filterMap_append]
    exact (List.append_nil _).symm ▸ ih
  | tau _ ho hn he ih =>
    have := ih.step ⟨_, _, _, ho, hn, rfl⟩
    rwa [he, List.append_nil] at this
  | sync _ ho hn he _ ih =>
    have := ih.step ⟨_, _, _, ho, hn, rfl⟩
    rw [he] at this
    rw [List.filterMap_append]
    exact this

/-- A run of the cache's side, from `s` to the end. -/
inductive Run (c : Cfg V) (prog : Nat → RWMap.Op K Nat) : Client K V → List (Item K V) → Client K V → Prop where
  | nil {s} : Run c prog s [] s
  | loc {s i inp s' e T s''} : s.loc c i inp = some (s', e) → Run c prog s' T s'' → Run c prog s (.loc e :: T) s''
  | map {s i e s' T s''} : s.sync c prog i e = some s' → Run c prog s' T s'' → Run c prog s (.map e :: T) s''

theorem Run.trans {c : Cfg V} {prog : Nat → RWMap.Op K Nat} {s s' s'' : Client K V} {T T' : List (Item K V)} (h : Run c prog s T s')
    (h' : Run c prog s' T' s'') : Run c prog s (T ++ T') s'' := by
  induction h with
  | nil => exact h'
  | loc hs _ ih => exact .loc hs (ih h')
  | map hs _ ih => exact .map hs (ih h')

theorem Sys.run {c : Cfg V} {prog : Nat → RWMap.Op K Nat} {T : List (Item K V)} {s : Client K V} {m : RWMap.State K Nat} (h : Sys c prog T s m) :
    Run c prog .init T s := by
  induction h with
  | init => exact .nil
  | loc _ hs ih => exact ih.trans (.loc hs .nil)
  | tau _ _ _ _ ih => exact ih
  | sync _ _ _ _ hs ih => exact ih.trans (.map hs .nil)

end Verif.SyncCache
