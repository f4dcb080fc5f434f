import Verif.RWMap.Float
import Verif.RWMap.Handover
import Verif.SyncCache.SysHB
/-!
# `synccache` with float keys (C160)

The cache over the steps of `RWMap` as in `Sys.lean`, the map with keys that are not equal to themselves as in `RWMap/Float.lean` (C147).  The code of the cache
does not compare keys, so it is the same (`Client.loc`, `Client.sync`); but a key that `Range` has handed out is looked up again by `CompareAndDelete`
(synccache.go lines 71, 152, 162), which does not find a NaN.
-/
namespace Verif.SyncCache.Float
open RWMap.Float (nnext NExec)
open Verif.Refresh (get_snoc get_lt get_keep get_new)
variable {K V : Type} [DecidableEq K]

/-! ## The machine -/

/-- Executions of the whole, as `Sys`, with keys of which some (`nan`) are not equal to themselves. -/
inductive NSys (nan : K → Bool) (c : Cfg V) (prog : Nat → RWMap.Op K Nat) : List (Item K V) → Client K V → RWMap.State K Nat → Prop where
  | init : NSys nan c prog [] .init .init
  | loc {T s m i inp s' e} : NSys nan c prog T s m → s.loc c i inp = some (s', e) → NSys nan c prog (T ++ [.loc e]) s' m
  | tau {T s m n ord m'} : NSys nan c prog T s m → (∀ l, (ord l).Perm l) → nnext nan ptrEq prog ord true m n = some m' →
      RWMap.event prog m n = [] → NSys nan c prog T s m'
  | sync {T s m n ord m' e i s'} : NSys nan c prog T s m → (∀ l, (ord l).Perm l) → nnext nan ptrEq prog ord true m n = some m' →
      RWMap.event prog m n = [e] → s.sync c prog i e = some s' → NSys nan c prog (T ++ [.map e]) s' m'

variable {nan : K → Bool} {c : Cfg V} {prog : Nat → RWMap.Op K Nat} {T A B : List (Item K V)} {s s' : Client K V} {m m' : RWMap.State K Nat} {i j n p a : Nat} {v : V}
  {op : Op K V} {k : K} {L : List (Ev K V)} {e : Ev K V}

/-- Without NaNs these are the executions of `Sys.lean`. -/
theorem nsys_sys : NSys (fun _ : K => false) c prog T s m ↔ Sys c prog T s m := by
  constructor
  · intro h
    induction h with
    | init => exact .init
    | loc _ h1 ih => exact ih.loc h1
    | tau _ h1 h2 h3 ih => exact ih.tau h1 (by rwa [RWMap.Float.nnext_next] at h2) h3
    | sync _ h1 h2 h3 h4 ih => exact ih.sync h1 (by rwa [RWMap.Float.nnext_next] at h2) h3 h4
  · intro h
    induction h with
    | init => exact .init
    | loc _ h1 ih => exact ih.loc h1
    | tau _ h1 h2 h3 ih => exact ih.tau h1 (by rwa [RWMap.Float.nnext_next]) h3
    | sync _ h1 h2 h3 h4 ih => exact ih.sync h1 (by rwa [RWMap.Float.nnext_next]) h3 h4

theorem NSys.exec (h : NSys nan c prog T s m) : NExec nan ptrEq prog (T.filterMap Item.map?) m := by
  induction h with
  | init => exact .init
  | loc _ h1 ih =>
    rw [List.filterMap_append]
    show NExec nan ptrEq prog (_ ++ []) _
    rwa [List.append_nil]
  | tau _ h1 h2 h3 ih =>
    have := ih.step ⟨_, _, _, h1, h2, rfl⟩
    rwa [h3, List.append_nil] at this
  | sync _ h1 h2 h3 h4 ih =>
    have := ih.step ⟨_, _, _, h1, h2, rfl⟩
    rw [h3] at this
    simpa [List.filterMap_append, Item.map?] using this

theorem NSys.prefix (h : NSys nan c prog T s m) : ∀ A B, T = A ++ B → ∃ s m, NSys nan c prog A s m := by
  induction h with
  | init => intro A B h; obtain ⟨rfl, -⟩ := List.append_eq_nil_iff.1 h.symm; exact ⟨_, _, .init⟩
  | tau _ _ _ _ ih => exact ih
  | loc h h1 ih =>
    intro A B hT
    rcases List.eq_nil_or_concat B with rfl | ⟨B', x, rfl⟩
    · rw [List.append_nil] at hT
      subst hT
      exact ⟨_, _, h.loc h1⟩
    · rw [List.concat_eq_append, ← List.append_assoc] at hT
      exact ih A B' (List.append_inj_left' hT rfl)
  | sync h h1 h2 h3 h4 ih =>
    intro A B hT
    rcases List.eq_nil_or_concat B with rfl | ⟨B', x, rfl⟩
    · rw [List.append_nil] at hT
      subst hT
      exact ⟨_, _, h.sync h1 h2 h3 h4⟩
    · rw [List.concat_eq_append, ← List.append_assoc] at hT
      exact ih A B' (List.append_inj_left' hT rfl)

/-! ## The map -/

section
variable {h : List (RWMap.Ev K Nat)}

/-- What a call took out of the map or saw in it is not a NaN's, and was put in for that key. -/
theorem nan_took (hx : NExec nan ptrEq prog h m) {r : RWMap.Res K Nat} (hr : .ret n r ∈ h) (ht : (prog n).Took ptrEq k r a ∨ (prog n).Saw k r a) :
    nan k = false ∧ ∃ b, .inv b ∈ h ∧ (prog b).Stored k a := by
  have hk : nan k = false := by
    by_contra hk
    have hk : nan k = true := by simpa using hk
    have hkey : (prog n).key? = some k := by
      rcases ht with (⟨h, -⟩ | ⟨_, h, -⟩ | ⟨_, h, -⟩ | ⟨_, _, h, -⟩) | ⟨h, -⟩ | ⟨_, h, -⟩ <;> rw [h] <;> rfl
    have := RWMap.Float.rwmap_nan_absent hx hkey hk hr
    subst this
    rcases ht with (⟨h, h'⟩ | ⟨_, h, h'⟩ | ⟨_, h, h', -⟩ | ⟨_, _, h, h', -⟩) | ⟨h, h'⟩ | ⟨_, h, h'⟩ <;> rw [h] at h' <;> cases h'
  refine ⟨hk, ?_⟩
  obtain ⟨h', t, hx', rfl, rfl⟩ := RWMap.Float.rwmap_nan hx
  obtain ⟨r', hr', rfl⟩ := RWMap.Float.mem_ret_map hr
  obtain ⟨src, hl⟩ := RWMap.rwmap_ledger hx'
  have htag : ∀ b, RWMap.Float.tag nan b k = (k, none) := fun b => by simp [RWMap.Float.tag, hk]
  have ht' : (RWMap.Float.own nan prog n).Took ptrEq (k, none) r' a ∨ (RWMap.Float.own nan prog n).Saw (k, none) r' a := by
    unfold RWMap.Float.own
    rcases ht with (⟨h, h'⟩ | ⟨x, h, h'⟩ | ⟨x, h, h', hq⟩ | ⟨x, y, h, h', hq⟩) | ⟨h, h'⟩ | ⟨x, h, h'⟩ <;> rw [h] <;>
      cases r' <;> simp only [RWMap.Float.mapRes, reduceCtorEq] at h' <;> cases h'
    · exact .inl (.inl ⟨by simp [RWMap.Float.mapOp, htag], rfl⟩)
    · exact .inl (.inr (.inl ⟨x, by simp [RWMap.Float.mapOp, htag], rfl⟩))
    · exact .inl (.inr (.inr (.inl ⟨x, by simp [RWMap.Float.mapOp, htag], rfl, hq⟩)))
    · exact .inl (.inr (.inr (.inr ⟨x, y, by simp [RWMap.Float.mapOp, htag], rfl, hq⟩)))
    · exact .inr (.inl ⟨by simp [RWMap.Float.mapOp, htag], rfl⟩)
    · exact .inr (.inr ⟨x, by simp [RWMap.Float.mapOp, htag], rfl⟩)
  obtain ⟨⟨u, hu1, hu2, -⟩, -, hinv, -⟩ := hl (k, none) n r' a hr' ht'
  have hua : u = a := by
    have hp : ∀ {x y : Nat}, ptrEq x y = some true → x = y := fun hxy => by simpa using hxy
    rcases ht' with (⟨hop, hr⟩ | ⟨z, hop, hr⟩ | ⟨z, hop, hr, hq⟩ | ⟨z, z', hop, hr, hq⟩) | ⟨hop, hr⟩ | ⟨z, hop, hr⟩ <;>
    rcases hu1 with (⟨hop', hr'⟩ | ⟨y, hop', hr'⟩ | ⟨y, hop', hr', hq'⟩ | ⟨y, y', hop', hr', hq'⟩) | ⟨hop', hr'⟩ | ⟨y, hop', hr'⟩ <;>
    rw [hop] at hop' <;> rw [hr] at hr' <;> first | (cases hop'; done) | (cases hr'; done) | skip
    all_goals first
      | (cases hr'; rfl)
      | (cases hop'; exact (hp hq').trans (hp hq).symm)
  subst hua
  obtain ⟨h1, h2, rfl⟩ := List.append_of_mem hr'
  refine ⟨src n, List.mem_map.2 ⟨_, List.mem_append_left _ (hinv h1 h2 rfl), rfl⟩, ?_⟩
  unfold RWMap.Float.own at hu2
  cases hp : prog (src n) <;> rw [hp] at hu2 <;> rcases hu2 with h | h | ⟨_, h⟩ <;> simp only [RWMap.Float.mapOp, reduceCtorEq] at h <;>
    injection h with h1 h2 <;> (try subst h2) <;> (have h3 := congrArg Prod.fst h1; simp only [RWMap.Float.tag] at h3; subst h3) <;> simp_all [RWMap.Op.Stored]

theorem nan_inv (hx : NExec nan ptrEq prog h m) : (m.pc n).isIdle = true → .inv n ∉ h := by
  obtain ⟨h', t, hx', rfl, rfl⟩ := RWMap.Float.rwmap_nan hx
  intro hi hm
  obtain ⟨e, he, h1⟩ := List.mem_map.1 hm
  cases e <;> cases h1
  have := ((RWMap.exec_book hx').inv n).1 he
  have hpc : (RWMap.Float.mapSt Prod.fst t).pc n = RWMap.Float.mapPC Prod.fst (t.pc n) := rfl
  rw [hpc] at hi
  cases hp : t.pc n <;> rw [hp] at hi this <;> first | exact this rfl | cases hi

theorem nan_visits (hx : NExec nan ptrEq prog h m) {es : List (K × Nat)} {b : Bool} (hr : .ret n (.visited es b) ∈ h) (ha : (k, a) ∈ es) : .visit n k a ∈ h := by
  obtain ⟨h', t, hx', rfl, rfl⟩ := RWMap.Float.rwmap_nan hx
  obtain ⟨r', hr', he⟩ := RWMap.Float.mem_ret_map hr
  cases r' <;> simp only [RWMap.Float.mapRes, reduceCtorEq] at he
  injection he with he1 he2
  subst he1
  rw [List.mem_map] at ha
  obtain ⟨⟨k', a'⟩, ha, hka⟩ := ha
  cases hka
  rw [← RWMap.exec_visits_ret hx' hr'] at ha
  simp only [RWMap.visitsOf, List.mem_filterMap] at ha
  obtain ⟨e, he, h1⟩ := ha
  refine List.mem_map.2 ⟨e, he, ?_⟩
  cases e <;> simp only [reduceCtorEq, Option.ite_none_right_eq_some, Option.some.injEq] at h1
  obtain ⟨rfl, h1⟩ := h1
  cases h1
  rfl
end

/-! ## Where a call is -/

/-- What the goroutines do outside the map. -/
abbrev locs (T : List (Item K V)) : List (Ev K V) := T.filterMap Item.loc?

omit [DecidableEq K] in
theorem locs_loc : locs (T ++ [.loc e]) = locs T ++ [e] := by simp [locs, List.filterMap_append, Item.loc?]
omit [DecidableEq K] in
theorem locs_map {e : RWMap.Ev K Nat} : locs (T ++ [.map e]) = locs T := by simp [locs, List.filterMap_append, Item.loc?]

/-- After `p` goroutine `i` made entry `a` with value `v`. -/
def MkIn (L : List (Ev K V)) (i p a : Nat) (v : V) (d : Int) : Prop := ∃ n now, p < n ∧ L[n]? = some (.mk i a v now d)

/-- Call `n` of the map was not made before event `p` of the goroutines. -/
def Late (T : List (Item K V)) (n p : Nat) : Prop := ∀ A B, T = A ++ B → (locs A).length ≤ p → .map (.inv n) ∉ A

/-- After `p` the function of `Range` was given entry `a`, or it was found expired. -/
def Handled (L : List (Ev K V)) (i p : Nat) (k : K) (a : Nat) : Prop :=
  Read L i p L.length a (fun now e => now > e) ∨ (Read L i p L.length a (fun now e => now ≤ e) ∧ ∃ z, p < z ∧ L[z]? = some (.yield i k a))

/-- An entry that was stored for a key that is not a NaN. -/
def Gave (nan : K → Bool) (L : List (Ev K V)) (a : Nat) : Prop := ∃ k, nan k = false ∧ StoredFor L k a L.length

section
variable (nan : K → Bool) (prog : Nat → RWMap.Op K Nat) (T : List (Item K V)) (i p : Nat) (op : Op K V)

def Loop (it : Iter K) (X : K → Nat → Prop) : Prop :=
  match it.kind with
  | .clear => op = .clear
  | .trim _ => op = .tick
  | .range => op = .range ∧ prog it.start = .range ∧ Late T it.start p ∧ ∀ k a, .map (.visit it.start k a) ∈ T → Handled (locs T) i p k a ∨ X k a

def AftSays : After K V → Prop
  | .user => ∃ k a, op = .compareAndDelete k a ∧ nan k = false
  | .loadExp => ∃ k, op = .load k ∧ nan k = false
  | .cvdExp | .cvd => ∃ k v, op = .compareValueAndDelete k v ∧ nan k = false
  | .los k v d _ => op = .loadOrStore k v d ∧ nan k = false
  | .iter it => Loop prog T i p op it fun _ _ => False
  | .del => ∃ k, op = .delete k ∧ nan k = false
  | .lad _ => ∃ k, op = .loadAndDelete k ∧ nan k = false

def CadSays (k : K) (a : Nat) : After K V → Prop
  | .user => op = .compareAndDelete k a
  | aft => AftSays nan prog T i p op aft

def SiteSays (k : K) (a : Nat) (t : Option Int) : Site K V → Prop
  | .load => op = .load k ∧ nan k = false
  | .cvd v => op = .compareValueAndDelete k v ∧ nan k = false
  | .los v d => op = .loadOrStore k v d ∧ nan k = false
  | .lad => op = .loadAndDelete k ∧ nan k = false ∧ Gave nan (locs T) a
  | .range it => it.kind = .range ∧
      Loop prog T i p op it fun k' a' => k' = k ∧ a' = a ∧ ∀ now, t = some now → ∃ x, p < x ∧ (locs T)[x]? = some (.clock i now)

/-- What is done when the call returns `r`. -/
def DoneOk (r : Res V) : Prop :=
  match op with
  | .store k v d => r = .unit ∧ ∃ a, MkIn (locs T) i p a v d ∧ ∃ n x, prog n = .swap k a ∧ .map (.ret n x) ∈ T
  | .loadOrStore k v d => nan k = true → ∃ a, r = .entry a false ∧ MkIn (locs T) i p a v d ∧ ∃ n x, prog n = .loadOrStore k a ∧ .map (.ret n x) ∈ T
  | .load k | .loadAndDelete k => nan k = true → r = .nil
  | .compareAndDelete k _ | .compareValueAndDelete k _ => nan k = true → r = .bool false
  | .delete k => nan k = true → r = .unit
  | .range => r = .unit → (∃ x, p < x ∧ (locs T)[x]? = some (.yieldEnd i (some false))) ∨
      ∃ n es, prog n = .range ∧ Late T n p ∧ .map (.ret n (.visited es false)) ∈ T ∧ ∀ k a, (k, a) ∈ es → Handled (locs T) i p k a
  | _ => True

/-- Calls that have nothing to do with keys. -/
def Plain : Op K V → Prop
  | .start | .close | .newEntry _ _ | .value _ | .isExpired _ | .addExpiration _ _ | .setExpiration _ _ => True
  | _ => False

def Says : PC K V → Prop
  | .idle => False
  | .stMk k v d => op = .store k v d
  | .stPut k a => ∃ v d, op = .store k v d ∧ MkIn (locs T) i p a v d
  | .ldGet k none => op = .load k
  | .ldGet k (some v) => op = .compareValueAndDelete k v
  | .chk k a st => SiteSays nan prog T i p op k a none st
  | .chkExp k a now st => SiteSays nan prog T i p op k a (some now) st
  | .losMk k v d => op = .loadOrStore k v d
  | .losTry k v d a => op = .loadOrStore k v d ∧ MkIn (locs T) i p a v d
  | .delTry k => op = .delete k
  | .ladTry k => op = .loadAndDelete k
  | .cad k a aft => CadSays nan prog T i p op k a aft
  | .cbCall a aft => Gave nan (locs T) a ∧ AftSays nan prog T i p op aft
  | .cbRun aft => AftSays nan prog T i p op aft
  | .cvEq k _ v => op = .compareValueAndDelete k v ∧ nan k = false
  | .clr => op = .clear
  | .iStart .clear => op = .clear
  | .iStart (.trim _) => op = .tick
  | .iStart .range => op = .range
  | .iter it | .fRun it => Loop prog T i p op it fun _ _ => False
  | .tChk _ _ _ it => Loop prog T i p op it fun _ _ => False
  | .fCall k a it => it.kind = .range ∧
      Loop prog T i p op it fun k' a' => k' = k ∧ a' = a ∧ Read (locs T) i p (locs T).length a (fun now e => now ≤ e)
  | .tkReg | .trNow => op = .tick
  | .regPut _ | .neMk _ _ | .valGet _ | .ieNow _ | .ieChk _ _ | .addE _ _ | .setE _ _ => Plain op
  | .done r => DoneOk nan prog T i p op r
end

/-- The loop over the map that a goroutine is in. -/
def After.loop : After K V → Option Nat
  | .iter it => some it.start
  | _ => none

def PC.loop : PC K V → Option Nat
  | .iter it | .fRun it | .tChk _ _ _ it | .fCall _ _ it | .chk _ _ (.range it) | .chkExp _ _ _ (.range it) => some it.start
  | .cad _ _ aft | .cbCall _ aft | .cbRun aft => After.loop aft
  | _ => none

/-! ## Later -/

section
omit [DecidableEq K]

theorem MkIn.sn {d : Int} (h : MkIn L i p a v d) : MkIn (L ++ [e]) i p a v d := by
  obtain ⟨n, now, h1, h2⟩ := h
  exact ⟨n, now, h1, get_keep h2⟩

theorem Read.sn {φ : Int → Int → Prop} (h : Read L i p L.length a φ) : Read (L ++ [e]) i p (L ++ [e]).length a φ := by
  obtain ⟨x, y, now, h1, h2, h3, h4, h5, h6⟩ := h
  exact ⟨x, y, now, h1, h2, by simp; omega, get_keep h4, get_keep h5, by rw [List.take_append_of_le_length (by omega)]; exact h6⟩

theorem Handled.sn (h : Handled L i p k a) : Handled (L ++ [e]) i p k a := by
  rcases h with h | ⟨h, z, h1, h2⟩
  · exact .inl (Read.sn h)
  · exact .inr ⟨Read.sn h, z, h1, get_keep h2⟩

theorem StoredFor.sn (h : StoredFor L k a L.length) : StoredFor (L ++ [e]) k a (L ++ [e]).length := by
  obtain ⟨n, j, p, v, now, d, op, h1, h2, h3, h4⟩ := h
  refine ⟨n, j, p, v, now, d, op, by simp; omega, get_keep h2, ⟨h3.lt, get_keep h3.at_, fun x op' hx hx' hc => ?_⟩, h4⟩
  rcases get_snoc.1 hc with hc | ⟨hc, -⟩
  · exact h3.only x op' hx hx' hc
  · omega

theorem Gave.sn (h : Gave nan L a) : Gave nan (L ++ [e]) a := h.imp fun _ h => ⟨h.1, StoredFor.sn h.2⟩

theorem Late.sn {x : Item K V} (h : Late T n p) (hp : p < (locs T).length) : Late (T ++ [x]) n p := by
  intro A B hT hA
  rcases List.eq_nil_or_concat B with rfl | ⟨B', y, rfl⟩
  · rw [List.append_nil] at hT
    subst hT
    simp only [locs, List.filterMap_append, List.length_append] at hA hp
    omega
  · rw [List.concat_eq_append, ← List.append_assoc] at hT
    exact h A B' (List.append_inj_left' hT rfl) hA

variable {x : Item K V}

theorem up {P : List (Ev K V) → Prop} (h : P (locs T)) (hs : ∀ e, P (locs T) → P (locs T ++ [e])) : P (locs (T ++ [x])) := by
  cases x with
  | loc e => rw [locs_loc]; exact hs e h
  | map e => rw [locs_map]; exact h

theorem Loop.sn {it : Iter K} {X X' : K → Nat → Prop} (h : Loop prog T i p op it X) (hp : p < (locs T).length)
    (hX : ∀ k a, X k a → Handled (locs (T ++ [x])) i p k a ∨ X' k a) (hv : ∀ k a, x = .map (.visit it.start k a) → X' k a) : Loop prog (T ++ [x]) i p op it X' := by
  unfold Loop at h ⊢
  cases hk : it.kind <;> simp only [hk] at h ⊢ <;> first | exact h | skip
  obtain ⟨h1, h2, h3, h4⟩ := h
  refine ⟨h1, h2, h3.sn hp, fun k a hm => ?_⟩
  rcases List.mem_append.1 hm with hm | hm
  · rcases h4 k a hm with h | h
    · exact .inl (up (P := fun L => Handled L i p k a) h fun _ => Handled.sn)
    · exact hX k a h
  · exact .inr (hv k a (List.mem_singleton.1 hm).symm)

theorem Loop.keep {it : Iter K} {X X' : K → Nat → Prop} (h : Loop prog T i p op it X) (hX : ∀ k a, X k a → Handled (locs T) i p k a ∨ X' k a) : Loop prog T i p op it X' := by
  unfold Loop at h ⊢
  cases hk : it.kind <;> simp only [hk] at h ⊢ <;> first | exact h | skip
  obtain ⟨h1, h2, h3, h4⟩ := h
  refine ⟨h1, h2, h3, fun k a hm => ?_⟩
  rcases h4 k a hm with h | h
  · exact .inl h
  · exact hX k a h

theorem AftSays.sn {aft : After K V} (h : AftSays nan prog T i p op aft) (hp : p < (locs T).length)
    (hv : ∀ n k a, x = .map (.visit n k a) → After.loop aft ≠ some n) : AftSays nan prog (T ++ [x]) i p op aft := by
  cases aft <;> first | exact h | skip
  exact Loop.sn h hp (fun _ _ h => h.elim) fun k a he => hv _ k a he rfl

theorem CadSays.sn {aft : After K V} (h : CadSays nan prog T i p op k a aft) (hp : p < (locs T).length)
    (hv : ∀ n k a, x = .map (.visit n k a) → After.loop aft ≠ some n) : CadSays nan prog (T ++ [x]) i p op k a aft := by
  cases aft <;> first | exact h | skip
  exact Loop.sn h hp (fun _ _ h => h.elim) fun k a he => hv _ k a he rfl

theorem SiteSays.sn {st : Site K V} {t : Option Int} (h : SiteSays nan prog T i p op k a t st) (hp : p < (locs T).length)
    (hv : ∀ n k a, x = .map (.visit n k a) → ∀ it, st = .range it → it.start ≠ n) : SiteSays nan prog (T ++ [x]) i p op k a t st := by
  cases st <;> first | exact h | skip
  · exact ⟨h.1, h.2.1, up (P := fun L => Gave nan L a) h.2.2 fun _ => Gave.sn⟩
  · refine ⟨h.1, Loop.sn h.2 hp (fun k' a' hX => .inr ⟨hX.1, hX.2.1, fun now ht => ?_⟩) fun k a he => (hv _ k a he _ rfl rfl).elim⟩
    obtain ⟨y, hy, hc⟩ := hX.2.2 now ht
    exact ⟨y, hy, up (P := fun L => L[y]? = some (.clock i now)) hc fun _ => get_keep⟩

theorem DoneOk.sn {r : Res V} (h : DoneOk nan prog T i p op r) (hp : p < (locs T).length) : DoneOk nan prog (T ++ [x]) i p op r := by
  cases op <;> first | exact h | skip
  · obtain ⟨h1, a, h2, n, y, h3, h4⟩ := h
    exact ⟨h1, a, up (P := fun L => MkIn L i p a _ _) h2 fun _ => MkIn.sn, n, y, h3, List.mem_append_left _ h4⟩
  · intro hk
    obtain ⟨a, h1, h2, n, y, h3, h4⟩ := h hk
    exact ⟨a, h1, up (P := fun L => MkIn L i p a _ _) h2 fun _ => MkIn.sn, n, y, h3, List.mem_append_left _ h4⟩
  · intro hr
    rcases h hr with ⟨y, h1, h2⟩ | ⟨n, es, h1, h2, h3, h4⟩
    · exact .inl ⟨y, h1, up (P := fun L => L[y]? = some (.yieldEnd i (some false))) h2 fun _ => get_keep⟩
    · exact .inr ⟨n, es, h1, h2.sn hp, List.mem_append_left _ h3, fun k a ha => up (P := fun L => Handled L i p k a) (h4 k a ha) fun _ => Handled.sn⟩

theorem Says.sn {pc : PC K V} (h : Says nan prog T i p op pc) (hp : p < (locs T).length) (hv : ∀ n k a, x = .map (.visit n k a) → PC.loop pc ≠ some n) :
    Says nan prog (T ++ [x]) i p op pc := by
  cases pc
  case stPut =>
    obtain ⟨v, d, h1, h2⟩ := h
    exact ⟨v, d, h1, up (P := fun L => MkIn L i p _ v d) h2 fun _ => MkIn.sn⟩
  case ldGet k o => cases o <;> exact h
  case chk k a st => exact SiteSays.sn h hp fun n k a he it hs => by subst hs; exact fun h => hv n k a he (by simp [PC.loop, h])
  case chkExp k a now st => exact SiteSays.sn h hp fun n k a he it hs => by subst hs; exact fun h => hv n k a he (by simp [PC.loop, h])
  case losTry => exact ⟨h.1, up (P := fun L => MkIn L i p _ _ _) h.2 fun _ => MkIn.sn⟩
  case cad k a aft => exact CadSays.sn h hp hv
  case cbCall a aft => exact ⟨up (P := fun L => Gave nan L a) h.1 fun _ => Gave.sn, AftSays.sn h.2 hp hv⟩
  case cbRun aft => exact AftSays.sn h hp hv
  case iStart kind => cases kind <;> exact h
  case iter it => exact Loop.sn h hp (fun _ _ h => h.elim) fun k a he => hv _ k a he rfl
  case fRun it => exact Loop.sn h hp (fun _ _ h => h.elim) fun k a he => hv _ k a he rfl
  case tChk it => exact Loop.sn h hp (fun _ _ h => h.elim) fun k a he => hv _ k a he rfl
  case fCall k a it =>
    refine ⟨h.1, Loop.sn h.2 hp (fun k' a' hX => .inr ⟨hX.1, hX.2.1, ?_⟩) fun k a he => (hv _ k a he rfl).elim⟩
    exact up (P := fun L => Read L i p L.length a _) hX.2.2 fun _ => Read.sn
  case done r => exact DoneOk.sn h hp
  all_goals exact h

/-! ## What follows -/

theorem next_says {aft : After K V} (b : Bool) (h : AftSays nan prog T i p op aft) : Says nan prog T i p op (aft.next b) := by
  rcases aft with _ | _ | _ | _ | ⟨k, v, d, a⟩ | it | _ | o
  · obtain ⟨k, a, rfl, hk⟩ := h
    exact fun h => absurd (hk.symm.trans h) Bool.false_ne_true
  · obtain ⟨k, rfl, hk⟩ := h
    exact fun h => absurd (hk.symm.trans h) Bool.false_ne_true
  · obtain ⟨k, v, rfl, hk⟩ := h
    exact fun h => absurd (hk.symm.trans h) Bool.false_ne_true
  · obtain ⟨k, v, rfl, hk⟩ := h
    exact fun h => absurd (hk.symm.trans h) Bool.false_ne_true
  · obtain ⟨rfl, hk⟩ := h
    cases b
    · exact fun h => absurd (hk.symm.trans h) Bool.false_ne_true
    · rfl
  · exact h
  · obtain ⟨k, rfl, hk⟩ := h
    exact fun h => absurd (hk.symm.trans h) Bool.false_ne_true
  · obtain ⟨k, rfl, hk⟩ := h
    cases o <;> exact fun h => absurd (hk.symm.trans h) Bool.false_ne_true

theorem afterDel_says {aft : After K V} (h : AftSays nan prog T i p op aft) (ha : Gave nan (locs T) a) : Says nan prog T i p op (afterDel c a aft) := by
  unfold afterDel
  split
  · exact ⟨ha, h⟩
  · exact next_says true h

theorem cad_aft {aft : After K V} (h : CadSays nan prog T i p op k a aft) (hk : nan k = false) : AftSays nan prog T i p op aft := by
  cases aft <;> first | exact h | exact ⟨k, a, h, hk⟩

/-- The call panics. -/
theorem site_panics {st : Site K V} {t : Option Int} (h : SiteSays nan prog T i p op k a t st) : DoneOk nan prog T i p op .panicked := by
  cases st
  case range it =>
    have := h.2
    unfold Loop at this
    rw [h.1] at this
    rw [this.1]
    exact nofun
  all_goals
    obtain ⟨rfl, h⟩ := h
    intro h'
    first
      | (rw [h] at h'; cases h')
      | (rw [h.1] at h'; cases h')

theorem loop_panics {it : Iter K} {X : K → Nat → Prop} (h : Loop prog T i p op it X) : DoneOk nan prog T i p op .panicked := by
  unfold Loop at h
  cases hk : it.kind <;> simp only [hk] at h
  · rw [h]; trivial
  · rw [h]; trivial
  · rw [h.1]; exact nofun

theorem aft_panics {aft : After K V} (h : AftSays nan prog T i p op aft) : DoneOk nan prog T i p op .panicked := by
  cases aft
  case iter it => exact loop_panics h
  case user => obtain ⟨k, a, rfl, h⟩ := h; exact fun h' => absurd (h.symm.trans h') Bool.false_ne_true
  case loadExp => obtain ⟨k, rfl, h⟩ := h; exact fun h' => absurd (h.symm.trans h') Bool.false_ne_true
  case cvdExp => obtain ⟨k, a, rfl, h⟩ := h; exact fun h' => absurd (h.symm.trans h') Bool.false_ne_true
  case cvd => obtain ⟨k, a, rfl, h⟩ := h; exact fun h' => absurd (h.symm.trans h') Bool.false_ne_true
  case los => obtain ⟨rfl, h⟩ := h; exact fun h' => absurd (h.symm.trans h') Bool.false_ne_true
  case del => obtain ⟨k, rfl, h⟩ := h; exact fun h' => absurd (h.symm.trans h') Bool.false_ne_true
  case lad => obtain ⟨k, rfl, h⟩ := h; exact fun h' => absurd (h.symm.trans h') Bool.false_ne_true

theorem live_says {st : Site K V} {now : Int} (h : SiteSays nan prog T i p op k a (some now) st) (hp : p < (locs T).length) (hle : ms now ≤ expOf (locs T) a) :
    Says nan prog (T ++ [.loc (.seen i a)]) i p op (st.live c k a) := by
  have h' := SiteSays.sn (x := .loc (.seen i a)) h hp nofun
  cases st
  case load => obtain ⟨rfl, hk⟩ := h; exact fun h => absurd (hk.symm.trans h) Bool.false_ne_true
  case cvd => exact h
  case los => obtain ⟨rfl, hk⟩ := h; exact fun h => absurd (hk.symm.trans h) Bool.false_ne_true
  case lad => exact afterDel_says ⟨k, h.1, h.2.1⟩ h'.2.2
  case range it =>
    refine ⟨h.1, Loop.sn h.2 hp (fun k' a' hX => .inr ⟨hX.1, hX.2.1, ?_⟩) nofun⟩
    obtain ⟨x, hx, hc⟩ := hX.2.2 now rfl
    rw [locs_loc]
    exact ⟨x, (locs T).length, now, hx, get_lt hc, by simp, get_keep hc, get_new, by rw [List.take_left]; exact hle⟩

theorem dead_says {st : Site K V} {now : Int} (h : SiteSays nan prog T i p op k a (some now) st) (hp : p < (locs T).length) (hgt : ms now > expOf (locs T) a) :
    Says nan prog (T ++ [.loc (.seen i a)]) i p op (st.dead c k a) := by
  have h' := SiteSays.sn (x := .loc (.seen i a)) h hp nofun
  cases st
  case load => exact ⟨k, h⟩
  case cvd => exact ⟨k, _, h⟩
  case los => exact h
  case lad => exact afterDel_says ⟨k, h.1, h.2.1⟩ h'.2.2
  case range it =>
    refine Loop.sn h.2 hp (fun k' a' hX => .inl (.inl ?_)) nofun
    obtain ⟨x, hx, hc⟩ := hX.2.2 now rfl
    rw [locs_loc, hX.2.1]
    exact ⟨x, (locs T).length, now, hx, get_lt hc, by simp, get_keep hc, get_new, by rw [List.take_left]; exact hgt⟩

theorem loop_next {aft : After K V} (b : Bool) : PC.loop (aft.next b) = After.loop aft ∨ PC.loop (aft.next b) = none := by
  rcases aft with _ | _ | _ | _ | _ | _ | _ | o <;> cases b <;> first | (exact .inl rfl) | (exact .inr rfl) | (cases o <;> exact .inl rfl)

theorem loop_afterDel {aft : After K V} : PC.loop (afterDel c a aft) = After.loop aft ∨ PC.loop (afterDel c a aft) = none := by
  unfold afterDel
  split
  · exact .inl rfl
  · exact loop_next true

/-! ## The invariant -/

structure NInv (nan : K → Bool) (c : Cfg V) (prog : Nat → RWMap.Op K Nat) (T : List (Item K V)) (s : Client K V) : Prop where
  wait : ∀ i n, s.wait i = some n → (s.st.pc i).mapOp c = some (prog n)
  pc : ∀ i, s.st.pc i = .idle ∨ ∃ p op, Cur (locs T) i p op ∧ Says nan prog T i p op (s.st.pc i)
  ents : ∀ (a : Nat) (v : V), Made (locs T) a v → ∃ x, s.st.ents[a]? = some (v, x)
  exps : ∀ (a : Nat) (v : V) (x : Int), s.st.ents[a]? = some (v, x) → expOf (locs T) a = x ∧ Made (locs T) a v
  puts : ∀ n k a, .map (.inv n) ∈ T → (prog n).Stored k a → StoredFor (locs T) k a (locs T).length
  inv : ∀ i n, PC.loop (s.st.pc i) = some n → .map (.inv n) ∈ T
  own : ∀ i j n, PC.loop (s.st.pc i) = some n → PC.loop (s.st.pc j) = some n → i = j
  clr : ∀ n, .map (.inv n) ∈ T → prog n = .clear → c.hasCb = false ∧ ∃ (i x : Nat), (locs T)[x]? = some (.call i .clear)
  cb : ∀ (x i : Nat) (v : V), (locs T)[x]? = some (.cb i v) → ∃ a, Gave nan ((locs T).take x) a ∧ Made ((locs T).take x) a v

theorem NInv.init : NInv nan c prog [] (Client.init : Client K V) where
  wait := nofun
  pc := fun _ => .inl rfl
  ents := by rintro a v ⟨n, i, now, d, h⟩; cases h
  exps := nofun
  puts := nofun
  inv := nofun
  own := nofun
  clr := nofun
  cb := nofun


theorem plain_done {r : Res V} (h : Plain op) : DoneOk nan prog T i p op r := by
  cases op <;> trivial
end

/-- A step of a goroutine outside the map. -/
theorem step_says {st st' : State K V} {inp : In K V} (h : step c [] st i inp = some (st', e)) (hm : (st.pc i).mapOp c = none) (hit : (st.pc i).isIter = false)
    (hc : Cur (locs T) i p op) (hs : Says nan prog T i p op (st.pc i)) (hx : ∀ (a : Nat) (v : V) (x : Int), st.ents[a]? = some (v, x) → expOf (locs T) a = x) :
    (∀ op, e ≠ .call i op) ∧ (st'.pc i = .idle ∨ Says nan prog (T ++ [.loc e]) i p op (st'.pc i)) := by
  have hp : p < (locs T).length := get_lt hc.1
  have self : ∀ (s : State K V) (pc : PC K V), (s.go i pc).pc i = pc := fun s pc => by simp [State.go]
  have hs' := Says.sn (x := .loc e) hs hp nofun
  have mk : ∀ {a v now d}, e = .mk i a v now d → MkIn (locs (T ++ [.loc e])) i p a v d := by
    rintro a v now d rfl
    rw [locs_loc]
    exact ⟨_, now, hp, get_new⟩
  unfold step at h
  split at h <;> first | (cases h; done) | skip
  all_goals
    rename_i hpc
    rw [hpc] at hm hit hs hs'
    first
      | (cases hm; done)
      | (cases hit; done)
      | skip
  · exact hs.elim
  · cases h
    refine ⟨nofun, .inr ?_⟩
    rw [self]
    exact ⟨_, _, hs, mk rfl⟩
  · -- chk
    rename_i st now
    cases h
    refine ⟨nofun, .inr ?_⟩
    rw [self]
    cases st <;> first | exact hs' | skip
    refine ⟨hs.1, Loop.sn hs.2 hp (fun k' a' hX => .inr ⟨hX.1, hX.2.1, fun now' hn => ?_⟩) nofun⟩
    cases hn
    rw [locs_loc]
    exact ⟨_, hp, get_new⟩
  · -- chkExp
    split at h <;> cases h
    · refine ⟨nofun, .inr ?_⟩
      rw [self]
      exact site_panics hs'
    · rename_i x hx'
      have := hx _ _ _ hx'
      refine ⟨nofun, .inr ?_⟩
      rw [self]
      split
      · exact dead_says hs hp (by omega)
      · exact live_says hs hp (by omega)
  · -- losMk
    cases h
    refine ⟨nofun, .inr ?_⟩
    rw [self]
    exact ⟨hs, mk rfl⟩
  · -- cbCall
    split at h <;> cases h <;> refine ⟨nofun, .inr ?_⟩ <;> rw [self]
    · exact aft_panics hs'.2
    · exact hs'.2
  · -- cbRun
    cases h
    refine ⟨nofun, .inr ?_⟩
    rw [self]
    split
    · exact next_says true hs'
    · exact aft_panics hs'
  · -- cvEq
    have hv : ∀ r, DoneOk nan prog (T ++ [.loc e]) i p op r := by
      obtain ⟨rfl, hk⟩ := hs
      exact fun r h => absurd (hk.symm.trans h) Bool.false_ne_true
    split at h <;> cases h <;> refine ⟨nofun, .inr ?_⟩ <;> rw [self]
    · exact hv _
    · split
      · exact hv _
      · exact ⟨_, _, hs⟩
      · exact hv _
  · -- clr
    split at h <;> cases h <;> refine ⟨nofun, .inr ?_⟩ <;> rw [self]
    · exact hs
    · rw [show op = .clear from hs]; trivial
  · -- tChk
    split at h <;> cases h <;> refine ⟨nofun, .inr ?_⟩ <;> rw [self]
    · exact loop_panics hs'
    · split <;> exact hs'
  · -- fCall
    cases h
    refine ⟨nofun, .inr ?_⟩
    rw [self]
    refine Loop.sn hs.2 hp (fun k' a' hX => .inl (.inr ?_)) nofun
    rw [locs_loc, hX.1, hX.2.1]
    exact ⟨Read.sn hX.2.2, _, hp, get_new⟩
  · -- fRun
    cases h
    refine ⟨nofun, .inr ?_⟩
    rw [self]
    split
    · exact loop_panics hs'
    · exact hs'
    · have hl : Loop prog T i p op _ (fun _ _ => False) := hs
      unfold Loop at hl
      split at hl
      · rw [hl]; trivial
      · rw [hl]; trivial
      · rw [hl.1]
        refine fun _ => .inl ⟨_, hp, ?_⟩
        rw [locs_loc]
        exact get_new
  · -- tkReg
    cases h
    refine ⟨nofun, .inr ?_⟩
    rw [self]
    split
    · exact hs
    · rw [show op = .tick from hs]; trivial
  · -- trNow
    cases h
    refine ⟨nofun, .inr ?_⟩
    rw [self]
    exact hs
  · cases h
    refine ⟨nofun, .inr ?_⟩
    rw [self]
    exact plain_done hs
  · cases h
    refine ⟨nofun, .inr ?_⟩
    rw [self]
    exact plain_done hs
  · cases h
    refine ⟨nofun, .inr ?_⟩
    rw [self]
    exact plain_done hs
  · cases h
    refine ⟨nofun, .inr ?_⟩
    rw [self]
    exact hs
  · split at h <;> cases h <;> refine ⟨nofun, .inr ?_⟩ <;> rw [self] <;> exact plain_done hs
  · split at h <;> cases h <;> refine ⟨nofun, .inr ?_⟩ <;> rw [self] <;> exact plain_done hs
  · split at h <;> cases h <;> refine ⟨nofun, .inr ?_⟩ <;> rw [self] <;> exact plain_done hs
  · cases h
    exact ⟨nofun, .inl (self _ _)⟩

/-- A step of a goroutine outside the map does not begin a loop. -/
theorem step_loop {st st' : State K V} {inp : In K V} (h : step c [] st i inp = some (st', e)) (hm : (st.pc i).mapOp c = none) (hit : (st.pc i).isIter = false)
    (hl : PC.loop (st'.pc i) = some n) : PC.loop (st.pc i) = some n := by
  have self : ∀ (s : State K V) (pc : PC K V), (s.go i pc).pc i = pc := fun s pc => by simp [State.go]
  have hnext : ∀ (aft : After K V) b, PC.loop (aft.next b) = some n → After.loop aft = some n := by
    intro aft b h
    rcases loop_next (aft := aft) b with h' | h' <;> rw [h'] at h
    · exact h
    · cases h
  have hdel : ∀ a (aft : After K V), PC.loop (afterDel c a aft) = some n → After.loop aft = some n := by
    intro a aft h
    rcases loop_afterDel (c := c) (a := a) (aft := aft) with h' | h' <;> rw [h'] at h
    · exact h
    · cases h
  have hsite : ∀ k a now (st : Site K V), PC.loop (.chkExp k a now st) = PC.loop (.chk k a st) := fun k a now st => by cases st <;> rfl
  have hlive : ∀ k a now (st : Site K V), PC.loop (st.live c k a) = some n → PC.loop (.chkExp k a now st) = some n := by
    intro k a now st h
    cases st <;> first | exact h | (cases hdel _ _ h)
  have hdead : ∀ k a now (st : Site K V), PC.loop (st.dead c k a) = some n → PC.loop (.chkExp k a now st) = some n := by
    intro k a now st h
    cases st <;> first | exact h | (cases hdel _ _ h)
  have henter : ∀ op : Op K V, PC.loop (enter op) = none := fun op => by cases op <;> rfl
  unfold step at h
  split at h <;> first | (cases h; done) | skip
  all_goals
    rename_i hpc
    rw [hpc] at hm hit ⊢
    first
      | (cases hm; done)
      | (cases hit; done)
      | skip
  all_goals first
    | (cases h; rw [self] at hl; first | (cases hl; done) | exact hl | skip)
    | (split at h <;> cases h <;> rw [self] at hl <;> first | (cases hl) | exact hl | skip)
  · rw [henter] at hl
    cases hl
  · rwa [hsite] at hl
  · split at hl
    · exact hdead _ _ _ _ hl
    · exact hlive _ _ _ _ hl
  · split at hl
    · exact hnext _ _ hl
    · cases hl
  · split at hl <;> cases hl
  · split at hl <;> exact hl
  · split at hl
    · cases hl
    · exact hl
    · cases hl
  · split at hl <;> cases hl

/-- Entries and their expirations. -/
theorem step_exps {st st' : State K V} {inp : In K V} (h : step c [] st i inp = some (st', e)) (hm : (st.pc i).mapOp c = none) (hit : (st.pc i).isIter = false)
    (hx : ∀ (a : Nat) (v : V) (x : Int), st.ents[a]? = some (v, x) → expOf L a = x ∧ Made L a v) :
    ∀ (a : Nat) (v : V) (x : Int), st'.ents[a]? = some (v, x) → expOf (L ++ [e]) a = x ∧ Made (L ++ [e]) a v := by
  have made : ∀ {a v}, Made L a v → Made (L ++ [e]) a v := fun ⟨n, i, now, d, h⟩ => ⟨n, i, now, d, get_keep h⟩
  have same : st'.ents = st.ents → (∀ a x, e.onExp a x = x) → ∀ (a : Nat) (v : V) (x : Int), st'.ents[a]? = some (v, x) → expOf (L ++ [e]) a = x ∧ Made (L ++ [e]) a v := by
    intro he ho a v x ha
    rw [he] at ha
    obtain ⟨h1, h2⟩ := hx a v x ha
    exact ⟨by rw [expOf_snoc, ho, h1], made h2⟩
  have new : ∀ (w : V) (now d : Int), e = .mk i st.ents.length w now d → st'.ents = (st.mk_ w now d).ents → ∀ (a : Nat) (v : V) (x : Int), st'.ents[a]? = some (v, x) →
      expOf (L ++ [e]) a = x ∧ Made (L ++ [e]) a v := by
    rintro w now d rfl he a v x ha
    rw [he] at ha
    rcases get_snoc.1 ha with ha | ⟨rfl, hw⟩
    · obtain ⟨h1, h2⟩ := hx a v x ha
      have := get_lt ha
      exact ⟨by rw [expOf_snoc, ← h1]; exact if_neg (by omega), made h2⟩
    · cases hw
      exact ⟨by rw [expOf_snoc]; exact if_pos rfl, _, _, _, _, get_new⟩
  have upd : ∀ (b : Nat) (y : V × Int) (z : Int), st.ents[b]? = some y → st'.ents = st.ents.set b (y.1, z) → (∀ x, e.onExp b y.2 = z ∧ ∀ a, a ≠ b → e.onExp a x = x) →
      ∀ (a : Nat) (v : V) (x : Int), st'.ents[a]? = some (v, x) → expOf (L ++ [e]) a = x ∧ Made (L ++ [e]) a v := by
    intro b y z hy he ho a v x ha
    rw [he] at ha
    by_cases hab : b = a
    · subst hab
      rw [List.getElem?_set_self (get_lt hy)] at ha
      cases ha
      obtain ⟨h1, h2⟩ := hx b y.1 y.2 hy
      exact ⟨by rw [expOf_snoc, h1]; exact (ho 0).1, made h2⟩
    · rw [List.getElem?_set_ne hab] at ha
      obtain ⟨h1, h2⟩ := hx a v x ha
      exact ⟨by rw [expOf_snoc, (ho _).2 a (Ne.symm hab), h1], made h2⟩
  unfold step at h
  split at h <;> first | (cases h; done) | skip
  all_goals
    rename_i hpc
    rw [hpc] at hm hit
    first
      | (cases hm; done)
      | (cases hit; done)
      | skip
  all_goals first
    | (cases h; exact same rfl fun _ _ => rfl)
    | (cases h; exact new _ _ _ rfl rfl)
    | (split at h <;> cases h <;> first
        | (exact same rfl fun _ _ => rfl)
        | (rename_i hy; exact upd _ _ _ hy rfl fun x => ⟨if_pos rfl, fun a ha => if_neg (Ne.symm ha)⟩))

omit [DecidableEq K] in
theorem cur_loc (h : Cur L i p op) (he : ∀ op, e ≠ .call i op) : Cur (L ++ [e]) i p op := by
  refine ⟨get_keep h.1, fun n op' hn hc => ?_⟩
  rcases get_snoc.1 hc with hc | ⟨-, hc⟩
  · exact h.2 n op' hn hc
  · exact he op' hc.symm

omit [DecidableEq K] in
theorem pcKnows_trivial (pc : PC K V) : PcKnows (fun _ => True) (fun _ => True) pc := by
  have ha : ∀ aft : After K V, AftOk (fun _ => True) (fun _ => True) aft := fun aft => by
    unfold AftOk
    split <;> trivial
  have hs : ∀ st : Site K V, SiteOk (fun _ => True) st := fun st => by cases st <;> trivial
  unfold PcKnows
  split <;> first | trivial | exact ha _ | exact ⟨trivial, ha _⟩ | exact ⟨trivial, hs _⟩

theorem step_cb {st st' : State K V} {inp : In K V} (h : step c [] st i inp = some (st', .cb j v)) :
    ∃ (a : Nat) (aft : After K V) (x : Int), st.pc i = .cbCall a aft ∧ st.ents[a]? = some (v, x) := by
  unfold step at h
  split at h <;> first | cases h | skip
  all_goals rename_i hpc
  all_goals first
    | (split at h <;> cases h <;> rename_i hx <;> exact ⟨_, _, _, hpc, hx⟩)

theorem step_idle {st st' : State K V} {inp : In K V} (h : step c [] st i inp = some (st', e)) (hi : st.pc i = .idle) :
    ∃ op, e = .call i op ∧ st'.pc i = enter op := by
  unfold step at h
  rw [hi] at h
  cases inp <;> cases h
  exact ⟨_, rfl, by simp [State.go]⟩

omit [DecidableEq K] in
theorem enter_says : Says nan prog T i p op (enter op) := by
  cases op <;> first | rfl | trivial

theorem NInv.loc {inp : In K V} (H : NInv nan c prog T s) (hs : s.loc c i inp = some (s', e)) : NInv nan c prog (T ++ [.loc e]) s' := by
  unfold Client.loc at hs
  split at hs
  · rename_i hc
    obtain ⟨hw, hm, hit⟩ := hc
    obtain ⟨⟨st', e'⟩, h, h2⟩ := Option.map_eq_some_iff.1 hs
    cases h2
    have ht := step_tid h
    have hx := step_exps (L := locs T) h hm hit H.exps
    obtain ⟨q1, q2, q3, -, -, -, q7⟩ := step_knows h hm hit (G := fun _ => True) (G' := fun _ => True) (N := fun _ => True) (N' := fun _ => True)
      (pcKnows_trivial _) (fun _ _ => trivial) (fun _ _ => trivial) (fun _ _ _ _ => trivial) (fun _ _ _ _ _ _ => trivial)
    have hmem : ∀ {y : RWMap.Ev K Nat}, .map y ∈ T ++ [.loc e'] → .map y ∈ T := by
      intro y hy
      rcases List.mem_append.1 hy with hy | hy
      · exact hy
      · simp at hy
    have hl := fun n => step_loop (n := n) h hm hit
    have hl' : ∀ j n, PC.loop (st'.pc j) = some n → PC.loop (s.st.pc j) = some n := by
      intro j n hj
      by_cases hji : j = i
      · subst hji; exact hl n hj
      · rwa [q3 j hji] at hj
    refine ⟨fun j n hj => ?_, fun j => ?_, ?_, ?_, ?_, fun j n hj => List.mem_append_left _ (H.inv j n (hl' j n hj)), fun j j' n h1 h2 => H.own j j' n (hl' j n h1) (hl' j' n h2), ?_, ?_⟩
    · by_cases hji : j = i
      · subst hji
        rw [show s.wait j = none from hw] at hj
        cases hj
      · show (st'.pc j).mapOp c = _
        rw [q3 j hji]
        exact H.wait j n hj
    · by_cases hji : j = i
      · subst hji
        rcases H.pc j with hp | ⟨p, op, hc, hp⟩
        · obtain ⟨op, rfl, h3⟩ := step_idle h hp
          refine .inr ⟨(locs T).length, op, ?_, ?_⟩
          · rw [locs_loc]
            refine ⟨get_new, fun n op' hn hc => ?_⟩
            have := get_lt hc
            simp at this
            omega
          · show Says nan prog _ j _ op (st'.pc j)
            rw [h3]
            exact enter_says
        · obtain ⟨h3, h4⟩ := step_says h hm hit hc hp fun a v x ha => (H.exps a v x ha).1
          rcases h4 with h4 | h4
          · exact .inl h4
          · refine .inr ⟨p, op, ?_, h4⟩
            rw [locs_loc]
            exact cur_loc hc h3
      · show st'.pc j = _ ∨ _
        rw [q3 j hji]
        rcases H.pc j with hp | ⟨p, op, hc, hp⟩
        · exact .inl hp
        · refine .inr ⟨p, op, ?_, hp.sn (get_lt hc.1) nofun⟩
          rw [locs_loc]
          refine cur_loc hc fun op' he => hji ?_
          rw [← ht, show e' = _ from he]
          rfl
    · rintro a v ⟨n, j, now, d, hn⟩
      rw [locs_loc] at hn
      rcases get_snoc.1 hn with hn | ⟨-, hn⟩
      · obtain ⟨x, hx⟩ := H.ents a v ⟨n, j, now, d, hn⟩
        exact q1 a v x hx
      · exact q2 j a v now d hn.symm
    · rw [locs_loc]
      exact hx
    · intro n k a hn hst
      rw [locs_loc]
      exact StoredFor.sn (H.puts n k a (hmem hn) hst)
    · intro n hn hp
      obtain ⟨h1, j, x, h2⟩ := H.clr n (hmem hn) hp
      exact ⟨h1, j, x, by rw [locs_loc]; exact get_keep h2⟩
    · intro x j v hx
      rw [locs_loc] at hx ⊢
      rcases get_snoc.1 hx with hx | ⟨hxl, hxe⟩
      · rw [List.take_append_of_le_length (Nat.le_of_lt (get_lt hx))]
        exact H.cb x j v hx
      · subst hxl
        rw [List.take_left]
        change Ev.cb j v = e' at hxe
        subst hxe
        obtain ⟨a, aft, x, h1, h2⟩ := step_cb h
        rcases H.pc i with hp | ⟨p, op, hc, hp⟩
        · rw [h1] at hp
          cases hp
        · rw [h1] at hp
          exact ⟨a, hp.1, (H.exps a v x h2).2⟩
  · cases hs

theorem nan_visit_inv {h : List (RWMap.Ev K Nat)} (hx : NExec nan ptrEq prog h m) (hv : .visit n k a ∈ h) : .inv n ∈ h := by
  obtain ⟨h', t, hx', rfl, rfl⟩ := RWMap.Float.rwmap_nan hx
  obtain ⟨e, he, h1⟩ := List.mem_map.1 hv
  cases e <;> cases h1
  exact List.mem_map.2 ⟨_, RWMap.inv_of_visit hx' he, rfl⟩

omit [DecidableEq K] in
theorem mem_maps {y : RWMap.Ev K Nat} : y ∈ T.filterMap Item.map? ↔ .map y ∈ T := by
  constructor
  · intro h
    obtain ⟨x, hx, hy⟩ := List.mem_filterMap.1 h
    cases x <;> cases hy
    exact hx
  · intro h
    exact List.mem_filterMap.2 ⟨_, h, rfl⟩

omit [DecidableEq K] in
/-- What follows a call of the map. -/
theorem cont_says {r : RWMap.Res K Nat} {pc : PC K V} (hpc : pc.mapOp c = some (prog n)) (hs : Says nan prog T i p op pc) (hr : .map (.ret n r) ∈ T)
    (ht : ∀ k a, (prog n).Took ptrEq k r a ∨ (prog n).Saw k r a → nan k = false ∧ Gave nan (locs T) a) : Says nan prog T i p op (pc.cont c r) := by
  unfold PC.cont
  split
  · obtain ⟨v, d, rfl, h2⟩ := hs
    exact ⟨rfl, _, h2, n, _, (Option.some.inj hpc).symm, hr⟩
  · rename_i k x
    cases x <;> cases hs <;> exact fun _ => rfl
  · rename_i k x a
    have := (ht k a (.inr (.inl ⟨(Option.some.inj hpc).symm, rfl⟩))).1
    cases x <;> exact ⟨hs, this⟩
  · obtain ⟨rfl, h2⟩ := hs
    exact fun _ => ⟨_, rfl, h2, n, _, (Option.some.inj hpc).symm, hr⟩
  · rename_i k v d x b
    exact ⟨hs.1, (ht k b (.inr (.inr ⟨x, (Option.some.inj hpc).symm, rfl⟩))).1⟩
  · cases hs
    exact fun _ => rfl
  · rename_i k a
    obtain ⟨h1, h2⟩ := ht k a (.inl (.inl ⟨(Option.some.inj hpc).symm, rfl⟩))
    exact afterDel_says ⟨k, hs, h1⟩ h2
  · cases hs
    exact fun _ => rfl
  · rename_i k a
    obtain ⟨h1, h2⟩ := ht k a (.inl (.inl ⟨(Option.some.inj hpc).symm, rfl⟩))
    exact ⟨hs, h1, h2⟩
  · rename_i k a aft
    obtain ⟨h1, h2⟩ := ht k a (.inl (.inr (.inr (.inl ⟨a, (Option.some.inj hpc).symm, rfl, by simp⟩))))
    exact afterDel_says (cad_aft hs h1) h2
  · rename_i k a aft
    cases aft
    · cases hs
      exact fun _ => rfl
    all_goals exact next_says false hs
  · cases hs
    trivial
  · exact hs

omit [DecidableEq K] in
theorem cont_loop {r : RWMap.Res K Nat} {pc : PC K V} (h : PC.loop (pc.cont c r) = some n) : PC.loop pc = some n := by
  unfold PC.cont at h
  split at h
  all_goals first
    | exact h
    | skip
  · rename_i k x a
    cases x <;> cases h
  · rcases loop_afterDel (c := c) (a := ‹_›) (aft := (After.del : After K V)) with h' | h' <;> rw [h'] at h <;> cases h
  · rename_i k a aft
    rcases loop_afterDel (c := c) (a := a) (aft := aft) with h' | h' <;> rw [h'] at h
    · exact h
    · cases h
  · rename_i k a aft
    rcases loop_next (aft := aft) false with h' | h' <;> rw [h'] at h
    · exact h
    · cases h

omit [DecidableEq K] in
theorem Cur.stored {d : Int} (h : Cur L i p op) (hm : MkIn L i p a v d) (ho : op = .store k v d ∨ op = .loadOrStore k v d) : StoredFor L k a L.length := by
  obtain ⟨n, now, h1, h2⟩ := hm
  exact ⟨n, i, p, v, now, d, op, get_lt h2, h2, ⟨h1, h.1, fun x op' hx _ => h.2 x op' hx⟩, ho⟩

theorem NInv.sync {e : RWMap.Ev K Nat} (H : NInv nan c prog T s) (hx : NExec nan ptrEq prog (T.filterMap Item.map?) m)
    (hx' : NExec nan ptrEq prog ((T ++ [(.map e : Item K V)]).filterMap Item.map?) m') (he : RWMap.event prog m n = [e])
    (hs : s.sync c prog i e = some s') : NInv nan c prog (T ++ [.map e]) s' := by
  have self : ∀ (s : State K V) (pc : PC K V), (s.go i pc).pc i = pc := fun s pc => by simp [State.go]
  have other : ∀ (s : State K V) (pc : PC K V) {j}, j ≠ i → (s.go i pc).pc j = s.pc j := fun s pc j hj => by simp [State.go, hj]
  cases e with
  | inv k =>
    have hnew : .map (.inv k) ∉ T := by
      rw [← mem_maps]
      refine nan_inv hx ?_
      unfold RWMap.event at he
      split at he
      · rename_i hp
        cases he
        rw [hp]
        rfl
      · cases he
      · split at he <;> cases he
      · cases he
    have hnv : ∀ y a, .map (.visit k y a) ∉ T := fun y a hm => hnew (mem_maps.1 (nan_visit_inv hx (mem_maps.2 hm)))
    have hlate : ∀ {p}, p < (locs T).length → Late (T ++ [.map (.inv k)]) k p := by
      intro p hp A B hT hA hm
      rcases List.eq_nil_or_concat B with rfl | ⟨B', y, rfl⟩
      · rw [List.append_nil] at hT
        subst hT
        rw [locs_map] at hA
        omega
      · rw [List.concat_eq_append, ← List.append_assoc] at hT
        have := List.append_inj_left' hT rfl
        subst this
        exact hnew (List.mem_append_left _ hm)
    simp only [Client.sync] at hs
    split at hs
    · rename_i hc
      obtain ⟨hw, hm⟩ := hc
      have hputs : ∀ n k' a, .map (.inv n) ∈ T ++ [.map (.inv k)] → (prog n).Stored k' a →
          StoredFor (locs (T ++ [.map (.inv k)])) k' a (locs (T ++ [.map (.inv k)])).length := by
        intro n k' a hn hst
        rw [locs_map]
        rcases List.mem_append.1 hn with hn | hn
        · exact H.puts n k' a hn hst
        · simp only [List.mem_singleton, Item.map.injEq, RWMap.Ev.inv.injEq] at hn
          subst hn
          rcases H.pc i with hp | ⟨p, op, hc, hp⟩
          · rw [hp] at hm
            cases hm
          · cases hpc : s.st.pc i <;> rw [hpc] at hm hp <;> first | cases hm | skip
            case stPut =>
              rw [← Option.some.inj hm] at hst
              rcases hst with h | h | ⟨u, h⟩ <;> cases h
              obtain ⟨v, d, h1, h2⟩ := hp
              exact Cur.stored hc h2 (.inl h1)
            case losTry =>
              rw [← Option.some.inj hm] at hst
              rcases hst with h | h | ⟨u, h⟩ <;> cases h
              exact Cur.stored hc hp.2 (.inr hp.1)
            case clr =>
              simp only [PC.mapOp] at hm
              split at hm <;> first | cases hm | skip
              rw [← Option.some.inj hm] at hst
              rcases hst with h | h | ⟨u, h⟩ <;> cases h
            all_goals
              rw [← Option.some.inj hm] at hst
              rcases hst with h | h | ⟨u, h⟩ <;> cases h
      have hclr : ∀ n, .map (.inv n) ∈ T ++ [.map (.inv k)] → prog n = .clear → c.hasCb = false ∧ ∃ (i x : Nat), (locs (T ++ [.map (.inv k)]))[x]? = some (.call i .clear) := by
        intro n hn hcl
        rw [locs_map]
        rcases List.mem_append.1 hn with hn | hn
        · exact H.clr n hn hcl
        · simp only [List.mem_singleton, Item.map.injEq, RWMap.Ev.inv.injEq] at hn
          subst hn
          rw [hcl] at hm
          rcases H.pc i with hp | ⟨p, op, hc, hp⟩
          · rw [hp] at hm
            cases hm
          · cases hpc : s.st.pc i <;> rw [hpc] at hm hp <;> first | cases hm | skip
            simp only [PC.mapOp] at hm
            split at hm
            · cases hm
            · rename_i hcb
              cases hp
              exact ⟨by simpa using hcb, i, p, hc.1⟩
      have hpcs : ∀ j, s.st.pc j = .idle ∨ ∃ p op, Cur (locs (T ++ [.map (.inv k)])) j p op ∧ Says nan prog (T ++ [.map (.inv k)]) j p op (s.st.pc j) := by
        intro j
        rcases H.pc j with hp | ⟨p, op, hc, hp⟩
        · exact .inl hp
        · exact .inr ⟨p, op, by rw [locs_map]; exact hc, hp.sn (get_lt hc.1) nofun⟩
      split at hs
      · rename_i kind hpc
        cases hs
        have hl : ∀ j n, PC.loop ((s.st.go i (.iter ⟨kind, [], k⟩)).pc j) = some n → (j = i ∧ n = k) ∨ (j ≠ i ∧ PC.loop (s.st.pc j) = some n) := by
          intro j n hj
          by_cases hji : j = i
          · subst hji
            rw [self] at hj
            cases hj
            exact .inl ⟨rfl, rfl⟩
          · rw [other _ _ hji] at hj
            exact .inr ⟨hji, hj⟩
        refine ⟨fun j n hj => ?_, fun j => ?_, by rw [locs_map]; exact H.ents, by rw [locs_map]; exact H.exps, hputs, fun j n hj => ?_, fun j j' n h1 h2 => ?_, hclr, by rw [locs_map]; exact H.cb⟩
        · by_cases hji : j = i
          · subst hji
            rw [show s.wait j = none from hw] at hj
            cases hj
          · show ((s.st.go i _).pc j).mapOp c = _
            rw [other _ _ hji]
            exact H.wait j n hj
        · by_cases hji : j = i
          · subst hji
            show (s.st.go j _).pc j = _ ∨ _
            rw [self]
            rcases H.pc j with hp | ⟨p, op, hc, hp⟩
            · rw [hpc] at hp
              cases hp
            · rw [hpc] at hp hm
              refine .inr ⟨p, op, by rw [locs_map]; exact hc, ?_⟩
              cases kind
              · exact hp
              · exact hp
              · refine ⟨hp, (Option.some.inj hm).symm, hlate (get_lt hc.1), fun y a hy => ?_⟩
                rcases List.mem_append.1 hy with hy | hy
                · exact absurd hy (hnv y a)
                · simp at hy
          · show (s.st.go i _).pc j = _ ∨ _
            rw [other _ _ hji]
            exact hpcs j
        · rcases hl j n hj with ⟨-, rfl⟩ | ⟨-, h⟩
          · exact List.mem_append_right _ (List.mem_singleton.2 rfl)
          · exact List.mem_append_left _ (H.inv j n h)
        · rcases hl j n h1 with ⟨rfl, rfl⟩ | ⟨-, h⟩ <;> rcases hl j' n h2 with ⟨rfl, h'⟩ | ⟨-, h'⟩
          · rfl
          · exact absurd (H.inv _ _ h') hnew
          · subst h'
            exact absurd (H.inv _ _ h) hnew
          · exact H.own _ _ _ h h'
      · cases hs
        refine ⟨fun j n hj => ?_, hpcs, by rw [locs_map]; exact H.ents, by rw [locs_map]; exact H.exps, hputs, fun j n hj => List.mem_append_left _ (H.inv j n hj), H.own, hclr,
          by rw [locs_map]; exact H.cb⟩
        by_cases hji : j = i
        · subst hji
          simp only [Function.update_self, Option.some.injEq] at hj
          subst hj
          exact hm
        · simp only [Function.update_of_ne hji] at hj
          exact H.wait j n hj
    · cases hs
  | visit k y a =>
    have hmem : ∀ {b}, .map (.inv b) ∈ T ++ [.map (.visit k y a)] → .map (.inv b) ∈ T := by
      intro b hb
      rcases List.mem_append.1 hb with hb | hb
      · exact hb
      · simp at hb
    simp only [Client.sync] at hs
    split at hs
    · rename_i kind b hw hpc
      split at hs
      · rename_i hbk
        subst hbk
        cases hs
        have hl : ∀ j n, PC.loop ((s.st.go i (Iter.visit ⟨kind, [], b⟩ y a)).pc j) = some n → PC.loop (s.st.pc j) = some n := by
          intro j n hj
          by_cases hji : j = i
          · subst hji
            rw [self] at hj
            rw [hpc]
            cases kind <;> exact hj
          · rwa [other _ _ hji] at hj
        refine ⟨fun j n hj => ?_, fun j => ?_, by rw [locs_map]; exact H.ents, by rw [locs_map]; exact H.exps, ?_, fun j n hj => List.mem_append_left _ (H.inv j n (hl j n hj)),
          fun j j' n h1 h2 => H.own j j' n (hl j n h1) (hl j' n h2), ?_, by rw [locs_map]; exact H.cb⟩
        · by_cases hji : j = i
          · subst hji
            rw [show s.wait j = none from hw] at hj
            cases hj
          · show ((s.st.go i _).pc j).mapOp c = _
            rw [other _ _ hji]
            exact H.wait j n hj
        · by_cases hji : j = i
          · subst hji
            show (s.st.go j _).pc j = _ ∨ _
            rw [self]
            rcases H.pc j with hp | ⟨p, op, hc, hp⟩
            · rw [hpc] at hp
              cases hp
            · rw [hpc] at hp
              refine .inr ⟨p, op, by rw [locs_map]; exact hc, ?_⟩
              cases kind
              · exact hp
              · exact hp
              · refine ⟨rfl, Loop.sn hp (get_lt hc.1) (fun _ _ => False.elim) fun y' a' hv => ?_⟩
                cases hv
                exact ⟨rfl, rfl, nofun⟩
          · show (s.st.go i _).pc j = _ ∨ _
            rw [other _ _ hji]
            rcases H.pc j with hp | ⟨p, op, hc, hp⟩
            · exact .inl hp
            · refine .inr ⟨p, op, by rw [locs_map]; exact hc, hp.sn (get_lt hc.1) fun n y' a' hv hn => hji ?_⟩
              cases hv
              exact H.own j i _ hn (by rw [hpc]; rfl)
        · intro n k' a' hn hst
          rw [locs_map]
          exact H.puts n k' a' (hmem hn) hst
        · intro n hn hcl
          rw [locs_map]
          exact H.clr n (hmem hn) hcl
      · cases hs
    · cases hs
  | ret k r =>
    have hmem : ∀ {b}, .map (.inv b) ∈ T ++ [.map (.ret k r)] → .map (.inv b) ∈ T := by
      intro b hb
      rcases List.mem_append.1 hb with hb | hb
      · exact hb
      · simp at hb
    have hret : .map (.ret k r) ∈ T ++ [.map (.ret k r)] := List.mem_append_right _ (List.mem_singleton.2 rfl)
    have htk : ∀ y a, (prog k).Took ptrEq y r a ∨ (prog k).Saw y r a → nan y = false ∧ Gave nan (locs (T ++ [.map (.ret k r)])) a := by
      intro y a ht
      obtain ⟨h1, b, hb, hst⟩ := nan_took hx' (mem_maps.2 hret) ht
      rw [locs_map]
      exact ⟨h1, y, h1, H.puts b y a (hmem (mem_maps.1 hb)) hst⟩
    have fin : ∀ (pc : PC K V) (w : Nat → Option Nat), s' = ⟨s.st.go i pc, w⟩ → w i = none → (∀ j, j ≠ i → w j = s.wait j) →
        (∀ n, PC.loop pc = some n → PC.loop (s.st.pc i) = some n) →
        (∀ p op, Cur (locs T) i p op → Says nan prog T i p op (s.st.pc i) → Says nan prog (T ++ [.map (.ret k r)]) i p op pc) → s.st.pc i ≠ .idle →
        NInv nan c prog (T ++ [.map (.ret k r)]) s' := by
      rintro pc w rfl hw hw' hlo hsay hidle
      have hl : ∀ j n, PC.loop ((s.st.go i pc).pc j) = some n → PC.loop (s.st.pc j) = some n := by
        intro j n hj
        by_cases hji : j = i
        · subst hji
          rw [self] at hj
          exact hlo n hj
        · rwa [other _ _ hji] at hj
      refine ⟨fun j n hj => ?_, fun j => ?_, by rw [locs_map]; exact H.ents, by rw [locs_map]; exact H.exps, ?_, fun j n hj => List.mem_append_left _ (H.inv j n (hl j n hj)),
          fun j j' n h1 h2 => H.own j j' n (hl j n h1) (hl j' n h2), ?_, by rw [locs_map]; exact H.cb⟩
      · by_cases hji : j = i
        · subst hji
          cases (show w j = some n from hj).symm.trans hw
        · show ((s.st.go i _).pc j).mapOp c = _
          rw [other _ _ hji]
          exact H.wait j n (by rw [← hw' j hji]; exact hj)
      · by_cases hji : j = i
        · subst hji
          show (s.st.go j _).pc j = _ ∨ _
          rw [self]
          rcases H.pc j with hp | ⟨p, op, hc, hp⟩
          · exact absurd hp hidle
          · exact .inr ⟨p, op, by rw [locs_map]; exact hc, hsay p op hc hp⟩
        · show (s.st.go i _).pc j = _ ∨ _
          rw [other _ _ hji]
          rcases H.pc j with hp | ⟨p, op, hc, hp⟩
          · exact .inl hp
          · exact .inr ⟨p, op, by rw [locs_map]; exact hc, hp.sn (get_lt hc.1) nofun⟩
      · intro n k' a' hn hst
        rw [locs_map]
        exact H.puts n k' a' (hmem hn) hst
      · intro n hn hcl
        rw [locs_map]
        exact H.clr n (hmem hn) hcl
    simp only [Client.sync] at hs
    split at hs
    · rename_i b hw
      split at hs
      · rename_i hbk
        subst hbk
        cases hs
        have hop := H.wait i b hw
        refine fin _ _ rfl (by simp) (fun j hj => by simp [hj]) (fun n => cont_loop) (fun p op hc hp => ?_) (fun h => by rw [h] at hop; cases hop)
        exact cont_says hop (hp.sn (get_lt hc.1) nofun) hret htk
      · cases hs
    · rename_i hw
      split at hs
      · rename_i kind b es hpc
        split at hs
        · rename_i hbk
          subst hbk
          cases hs
          refine fin _ _ rfl hw (fun _ _ => rfl) nofun (fun p op hc hp => ?_) (by rw [hpc]; nofun)
          rw [hpc] at hp
          cases kind
          · cases hp
            trivial
          · cases hp
            trivial
          · obtain ⟨rfl, h2, h3, h4⟩ := hp
            refine fun _ => .inr ⟨b, es, h2, h3.sn (get_lt hc.1), hret, fun y a ha => ?_⟩
            have := mem_maps.1 (nan_visits hx' (mem_maps.2 hret) ha)
            rcases List.mem_append.1 this with hv | hv
            · rw [locs_map]
              exact (h4 y a hv).resolve_right id
            · simp at hv
        · cases hs
      · cases hs

theorem NSys.inv (h : NSys nan c prog T s m) : NInv nan c prog T s := by
  induction h with
  | init => exact .init
  | loc _ h1 ih => exact ih.loc h1
  | tau _ _ _ _ ih => exact ih
  | sync h h1 h2 h3 h4 ih => exact ih.sync h.exec (h.sync h1 h2 h3 h4).exec h3 h4

/-! ## The end of a call -/

omit [DecidableEq K] in
theorem split_at {q : Nat} (h : (locs T)[q]? = some e) : ∃ A B, T = A ++ .loc e :: B ∧ (locs A).length = q := by
  induction T generalizing q with
  | nil => simp [locs] at h
  | cons x T ih =>
    cases x with
    | map y =>
      obtain ⟨A, B, rfl, h2⟩ := ih (q := q) h
      exact ⟨.map y :: A, B, rfl, h2⟩
    | loc y =>
      cases q with
      | zero =>
        have : y = e := by simpa [locs, Item.loc?] using h
        subst this
        exact ⟨[], T, rfl, rfl⟩
      | succ q =>
        obtain ⟨A, B, rfl, h2⟩ := ih (q := q) (by simpa [locs, Item.loc?] using h)
        exact ⟨.loc y :: A, B, rfl, by simpa [locs, Item.loc?] using h2⟩

theorem NSys.last (h : NSys nan c prog T s m) : ∀ A e, T = A ++ [.loc e] → ∃ s m i inp s', NSys nan c prog A s m ∧ s.loc c i inp = some (s', e) := by
  induction h with
  | init => intro A e h; simp at h
  | tau _ _ _ _ ih => exact ih
  | loc h h1 _ =>
    intro A e hT
    obtain ⟨rfl, h3⟩ := List.append_inj' hT rfl
    cases h3
    exact ⟨_, _, _, _, _, h, h1⟩
  | sync h h1 h2 h3 h4 _ =>
    intro A e hT
    obtain ⟨rfl, h3⟩ := List.append_inj' hT rfl
    cases h3

theorem step_ret {st st' : State K V} {inp : In K V} {r : Res V} (h : step c [] st i inp = some (st', .ret j r)) : j = i ∧ st.pc i = .done r := by
  unfold step at h
  split at h <;> first | (cases h; done) | skip
  all_goals rename_i hpc
  all_goals first
    | (cases h; exact ⟨rfl, hpc⟩)
    | (split at h <;> cases h)

theorem returned {q : Nat} {r : Res V} (h : NSys nan c prog T s m) (hq : (locs T)[q]? = some (.ret i r)) (hc : CallAt (locs T) i p op q) :
    ∃ A B, T = A ++ .loc (.ret i r) :: B ∧ (locs A).length = q ∧ DoneOk nan prog A i p op r ∧ ∃ s m, NSys nan c prog A s m := by
  obtain ⟨A, B, rfl, hA⟩ := split_at hq
  obtain ⟨s1, m1, h1⟩ := h.prefix (A ++ [.loc (.ret i r)]) B (by simp)
  obtain ⟨s2, m2, i', inp, s3, h2, h3⟩ := h1.last A _ rfl
  unfold Client.loc at h3
  split at h3
  · obtain ⟨⟨st', e'⟩, h4, h5⟩ := Option.map_eq_some_iff.1 h3
    injection h5 with h5 h6
    subst h6
    obtain ⟨rfl, hpc⟩ := step_ret h4
    refine ⟨A, B, rfl, hA, ?_, _, _, h2⟩
    have hlt : ∀ {x : Nat} {y : Ev K V}, x < q → (locs (A ++ .loc (.ret i r) :: B))[x]? = some y → (locs A)[x]? = some y := by
      intro x y hx hy
      rw [locs, List.filterMap_append, List.getElem?_append_left (by rw [hA]; exact hx)] at hy
      exact hy
    have hge : ∀ {x : Nat} {y : Ev K V}, (locs A)[x]? = some y → (locs (A ++ .loc (.ret i r) :: B))[x]? = some y := by
      intro x y hy
      rw [locs, List.filterMap_append, List.getElem?_append_left (get_lt hy)]
      exact hy
    rcases h2.inv.pc i with hp | ⟨p', op', hc', hp⟩
    · rw [hpc] at hp
      cases hp
    · rw [hpc] at hp
      have h6 := hlt hc.lt hc.at_
      have : p' = p := by
        rcases Nat.lt_trichotomy p' p with h | h | h
        · exact absurd h6 (hc'.2 p op h)
        · exact h
        · exact absurd (hge hc'.1) (hc.only p' op' h (by rw [← hA]; exact get_lt hc'.1))
      subst this
      cases hc'.1.symm.trans h6
      exact hp
  · cases h3

/-! ## C160 -/

/-- C160: a call with a NaN returns, if it does, what it returns when the cache does not have its key; it does not panic. -/
theorem C160_absent {q : Nat} {r : Res V} (h : NSys nan c prog T s m) (hc : CallAt (locs T) i p op q) (hq : (locs T)[q]? = some (.ret i r)) (hk : nan k = true) :
    (op = .load k ∨ op = .loadAndDelete k → r = .nil) ∧
    (∀ x v, op = .compareAndDelete k x ∨ op = .compareValueAndDelete k v → r = .bool false) ∧
    (∀ v d, op = .delete k ∨ op = .store k v d → r = .unit) ∧
    (∀ v d, op = .loadOrStore k v d → ∃ (a n : Nat) (now : Int), r = .entry a false ∧ p < n ∧ n < q ∧ (locs T)[n]? = some (.mk i a v now d)) := by
  obtain ⟨A, B, rfl, hA, hd, -⟩ := returned h hq hc
  refine ⟨?_, ?_, ?_, ?_⟩
  · rintro (rfl | rfl)
    · exact hd hk
    · exact hd hk
  · rintro x v (rfl | rfl)
    · exact hd hk
    · exact hd hk
  · rintro v d (rfl | rfl)
    · exact hd hk
    · exact hd.1
  · rintro v d rfl
    obtain ⟨a, h1, ⟨n, now, h2, h3⟩, -⟩ := hd hk
    refine ⟨a, n, now, h1, h2, by rw [← hA]; exact get_lt h3, ?_⟩
    rw [locs, List.filterMap_append, List.getElem?_append_left (get_lt h3)]
    exact h3

/-- C160: the callback gets only values that were stored with keys that are not NaN: whatever was stored with a NaN, neither `Delete`, `LoadAndDelete`,
`CompareAndDelete`, `Clear` nor the trimmer hands it to the callback. -/
theorem C160_callback {x : Nat} (h : NSys nan c prog T s m) (hx : (locs T)[x]? = some (.cb i v)) :
    ∃ (k : K) (a n j p : Nat) (now d : Int) (op : Op K V), nan k = false ∧ n < x ∧ (locs T)[n]? = some (.mk j a v now d) ∧ CallAt (locs T) j p op n ∧
      (op = .store k v d ∨ op = .loadOrStore k v d) := by
  obtain ⟨a, ⟨k, hk, n, j, p, w, now, d, op, h1, h2, h3, h4⟩, h5⟩ := h.inv.cb x i v hx
  have hle := Nat.le_of_lt (get_lt hx)
  have tk : ∀ {y : Nat} {z : Ev K V}, ((locs T).take x)[y]? = some z → (locs T)[y]? = some z := fun hy => (get_take.1 hy).2
  have hw : v = w := by
    obtain ⟨n', j', now', d', h6⟩ := h5
    obtain ⟨x1, h7⟩ := h.inv.ents a v ⟨n', j', now', d', tk h6⟩
    obtain ⟨x2, h8⟩ := h.inv.ents a w ⟨n, j, now, d, tk h2⟩
    rw [h7] at h8
    cases h8
    rfl
  subst hw
  have hn : n < x := (get_take.1 h2).1
  exact ⟨k, a, n, j, p, now, d, op, hk, hn, tk h2, ⟨h3.lt, tk h3.at_, fun y op' hy hy' hc => h3.only y op' hy hy' (get_take.2 ⟨by omega, hc⟩)⟩, h4⟩

/-- C160: what has been stored with a NaN stays in the cache: every `Range` that is called after the call that stored it has returned, and comes to its end, is given that entry,
or finds it expired - and every later `Range` again.  With a callback not even `Clear` removes it. -/
theorem C160_stays {i' p' q q' : Nat} {v : V} {d : Int} {r : Res V} (h : NSys nan c prog T s m)
    (hcl : c.hasCb = true ∨ ∀ (j x : Nat), (locs T)[x]? ≠ some (.call j .clear)) (hk : nan k = true) (ho : op = .store k v d ∨ op = .loadOrStore k v d)
    (hc : CallAt (locs T) i p op q) (hq : (locs T)[q]? = some (.ret i r))
    (hc' : CallAt (locs T) i' p' .range q') (hq' : (locs T)[q']? = some (.ret i' .unit)) (hlt : q < p')
    (hy : ∀ x, p' < x → x < q' → (locs T)[x]? ≠ some (.yieldEnd i' (some false))) :
    ∃ (a n : Nat) (now : Int), p < n ∧ n < q ∧ (locs T)[n]? = some (.mk i a v now d) ∧
      (Read (locs T) i' p' q' a (fun now e => now > e) ∨
       Read (locs T) i' p' q' a (fun now e => now ≤ e) ∧ ∃ z, p' < z ∧ z < q' ∧ (locs T)[z]? = some (.yield i' k a)) := by
  obtain ⟨A, B, hT, hA, hd, -⟩ := returned h hq hc
  obtain ⟨A', B', hT', hA', hd', s1, m1, h1⟩ := returned h hq' hc'
  have hst : ∃ a, MkIn (locs A) i p a v d ∧ ∃ n x, RWMap.Float.stores nan (prog n) = some (k, a) ∧ .map (.ret n x) ∈ A := by
    rcases ho with rfl | rfl
    · obtain ⟨-, a, h2, n, x, h3, h4⟩ := hd
      exact ⟨a, h2, n, x, by rw [h3]; simp [RWMap.Float.stores, hk], h4⟩
    · obtain ⟨a, -, h2, n, x, h3, h4⟩ := hd hk
      exact ⟨a, h2, n, x, by rw [h3]; simp [RWMap.Float.stores, hk], h4⟩
  obtain ⟨a, ⟨n, now, hn1, hn2⟩, b, x, hb, hbr⟩ := hst
  have keep : ∀ {x : Nat} {y : Ev K V}, (locs A)[x]? = some y → (locs T)[x]? = some y := by
    intro x y hy
    rw [hT, locs, List.filterMap_append, List.getElem?_append_left (get_lt hy)]
    exact hy
  have keep' : ∀ {x : Nat} {y : Ev K V}, (locs A')[x]? = some y → (locs T)[x]? = some y := by
    intro x y hy
    rw [hT', locs, List.filterMap_append, List.getElem?_append_left (get_lt hy)]
    exact hy
  have hqq : q < q' := Nat.lt_trans hlt hc'.lt
  obtain ⟨C, rfl⟩ : ∃ C, A' = A ++ C := by
    have h2 : A <+: T := ⟨_, hT.symm⟩
    have h3 : A' <+: T := ⟨_, hT'.symm⟩
    rcases Nat.le_total A.length A'.length with hle | hle
    · obtain ⟨C, hC⟩ := List.prefix_of_prefix_length_le h2 h3 hle
      exact ⟨C, hC.symm⟩
    · obtain ⟨C, rfl⟩ := List.prefix_of_prefix_length_le h3 h2 hle
      rw [locs, List.filterMap_append, List.length_append] at hA
      simp only [locs] at hA'
      omega
  refine ⟨a, n, now, hn1, by rw [← hA]; exact get_lt hn2, keep hn2, ?_⟩
  rcases hd' rfl with ⟨y, hy1, hy2⟩ | ⟨n', es, h2, h3, h4, h5⟩
  · exact absurd (keep' hy2) (hy y hy1 (by rw [← hA']; exact get_lt hy2))
  · have hex := h1.exec
    rw [List.filterMap_append] at hex
    have := RWMap.Float.rwmap_nan_stays hex (I := [b]) (fun y hy hcy => by
        rw [← List.filterMap_append] at hy
        obtain ⟨hcb, j, x, hjx⟩ := h1.inv.clr y (mem_maps.1 hy) hcy
        rcases hcl with hcl | hcl
        · rw [hcb] at hcl
          cases hcl
        · exact hcl j x (keep' hjx)) h2 (es := es) (by rw [← List.filterMap_append]; exact mem_maps.2 h4)
      (fun hm => h3 A C rfl (by omega) (mem_maps.1 hm)) (by simp) (by
        intro y hy
        rw [List.mem_singleton.1 hy, hb]
        exact ⟨rfl, x, mem_maps.2 hbr⟩)
    simp only [List.filterMap_cons, hb, List.filterMap_nil] at this
    have read : ∀ {φ : Int → Int → Prop}, Read (locs (A ++ C)) i' p' (locs (A ++ C)).length a φ → Read (locs T) i' p' q' a φ := by
      rintro φ ⟨x, y, now, g1, g2, g3, g4, g5, g6⟩
      refine ⟨x, y, now, g1, g2, by omega, keep' g4, keep' g5, ?_⟩
      rw [hT', locs, List.filterMap_append, List.take_append_of_le_length (by simp only [locs] at g3; omega)]
      exact g6
    rcases h5 k a (this.subset (List.mem_singleton.2 rfl)) with h6 | ⟨h6, z, h7, h8⟩
    · exact .inl (read h6)
    · exact .inr ⟨read h6, z, h7, by rw [← hA']; exact get_lt h8, keep' h8⟩

/-! ### Example -/

def nsysPlay (nan : K → Bool) (c : Cfg V) (prog : Nat → RWMap.Op K Nat) : List (Cmd K V) → List (Item K V) → Client K V → RWMap.State K Nat → Option (List (Item K V))
  | [], T, _, _ => some T
  | .loc i inp :: l, T, s, m =>
    match s.loc c i inp with
    | none => none
    | some (s', e) => nsysPlay nan c prog l (T ++ [.loc e]) s' m
  | .map i n :: l, T, s, m =>
    match nnext nan ptrEq prog id true m n with
    | none => none
    | some m' =>
      match RWMap.event prog m n with
      | [] => nsysPlay nan c prog l T s m'
      | [e] =>
        match s.sync c prog i e with
        | none => none
        | some s' => nsysPlay nan c prog l (T ++ [.map e]) s' m'
      | _ => none

theorem nsysPlay_nsys {l : List (Cmd K V)} : ∀ {T s m}, NSys nan c prog T s m → ∀ {T'}, nsysPlay nan c prog l T s m = some T' → ∃ s' m', NSys nan c prog T' s' m' := by
  induction l with
  | nil => intro T s m h T' h'; cases h'; exact ⟨_, _, h⟩
  | cons x l ih =>
    intro T s m h T' h'
    cases x with
    | loc i inp =>
      simp only [nsysPlay] at h'
      split at h'
      · cases h'
      · next hs => exact ih (h.loc hs) h'
    | map i n =>
      simp only [nsysPlay] at h'
      split at h'
      · cases h'
      · next hm =>
        split at h'
        · next he => exact ih (h.tau (fun l => .refl l) hm he) h'
        · next he =>
          split at h'
          · cases h'
          · next hs => exact ih (h.sync (fun l => .refl l) hm he hs) h'
        · cases h'

/-- Key 0 is a NaN. -/
def zeroNan (k : Nat) : Bool := k == 0

def nanCalls : Nat → RWMap.Op Nat Nat
  | 0 => .swap 0 0
  | 1 => .swap 1 1
  | 2 => .range
  | 3 => .compareAndDelete 0 0
  | 4 => .compareAndDelete 1 1
  | 5 => .load 0
  | _ => .range

def nanLog (l : List (Cmd Nat Nat)) : Option (List (Ev Nat Nat)) :=
  (nsysPlay zeroNan (cfg true) nanCalls l [] .init .init).map fun T => (locs T).filter Ev.visible


theorem nanLog_nsys {l : List (Cmd Nat Nat)} {tr : List (Ev Nat Nat)} (h : nanLog l = some tr) :
    ∃ T s m, NSys zeroNan (cfg true) nanCalls T s m ∧ (locs T).filter Ev.visible = tr := by
  obtain ⟨T, h1, h2⟩ := Option.map_eq_some_iff.1 h
  obtain ⟨s, m, h3⟩ := nsysPlay_nsys .init h1
  exact ⟨T, s, m, h3, h2⟩

/-- `Clear` removes 8, which was stored with key 1, and calls the callback; 7, which was stored with the NaN, is still there for `Range`, and `Load` does not find it. -/
theorem exNan : nanLog ([.loc 0 (.call (.store 0 7 10000000)), .loc 0 (.time 100000000)] ++ maps 10 0 0 ++ [.loc 0 .go] ++
      [.loc 0 (.call (.store 1 8 10000000)), .loc 0 (.time 100000000)] ++ maps 7 0 1 ++ [.loc 0 .go] ++
      [.loc 1 (.call .clear), .loc 1 .go] ++ maps 7 1 2 ++ maps 3 1 3 ++ maps 1 1 2 ++ maps 6 1 4 ++ [.loc 1 .go, .loc 1 (.cbFin true)] ++ maps 2 1 2 ++ [.loc 1 .go] ++
      [.loc 0 (.call (.load 0))] ++ maps 3 0 5 ++ [.loc 0 .go] ++
      [.loc 2 (.call .range)] ++ maps 3 2 6 ++ [.loc 2 (.time 105000000), .loc 2 .go, .loc 2 .go, .loc 2 (.fFin (some true))] ++ maps 3 2 6 ++ [.loc 2 .go]) =
    some [.call 0 (.store 0 7 10000000), .mk 0 0 7 100000000 10000000, .ret 0 .unit, .call 0 (.store 1 8 10000000), .mk 0 1 8 100000000 10000000, .ret 0 .unit,
      .call 1 .clear, .cb 1 8, .cbEnd 1 true, .ret 1 .unit, .call 0 (.load 0), .ret 0 .nil,
      .call 2 .range, .clock 2 105000000, .seen 2 0, .yield 2 0 0, .yieldEnd 2 (some true), .ret 2 .unit] := by rfl

end Verif.SyncCache.Float
