import Verif.SyncCache.Sys
/-!
# Threads of the two machines

A thread inside a `Range` of the map has the same program counter in both machines but for the loop it keeps: `PC.sub`.
-/
namespace Verif.SyncCache
open RWMap (effects apply resultOn AMap LEv)
variable {K V : Type}

def Iter.sub (r : List K) (st : Nat) (it : Iter K) : Iter K := ⟨it.kind, r, st⟩

def Site.sub (r : List K) (st : Nat) : Site K V → Site K V
  | .range it => .range (it.sub r st)
  | x => x

def After.sub (r : List K) (st : Nat) : After K V → After K V
  | .iter it => .iter (it.sub r st)
  | x => x

def PC.sub (r : List K) (st : Nat) : PC K V → PC K V
  | .chk k a x => .chk k a (x.sub r st)
  | .chkExp k a now x => .chkExp k a now (x.sub r st)
  | .cad k a x => .cad k a (x.sub r st)
  | .cbCall a x => .cbCall a (x.sub r st)
  | .cbRun x => .cbRun (x.sub r st)
  | .iter it => .iter (it.sub r st)
  | .tChk k a now it => .tChk k a now (it.sub r st)
  | .fCall k a it => .fCall k a (it.sub r st)
  | .fRun it => .fRun (it.sub r st)
  | pc => pc

def Site.it? : Site K V → Option (Iter K)
  | .range it => some it
  | _ => none

def After.it? : After K V → Option (Iter K)
  | .iter it => some it
  | _ => none

/-- The loop a thread is in. -/
def PC.it? : PC K V → Option (Iter K)
  | .chk _ _ x | .chkExp _ _ _ x => x.it?
  | .cad _ _ x | .cbCall _ x | .cbRun x => x.it?
  | .iter it | .tChk _ _ _ it | .fCall _ _ it | .fRun it => some it
  | _ => none

variable {c : Cfg V} {r : List K} {st : Nat}

theorem next_sub (x : After K V) (b : Bool) : (x.sub r st).next b = (x.next b).sub r st := by
  cases x with
  | los k v d a => cases b <;> rfl
  | lad o => cases o <;> rfl
  | _ => rfl

theorem next_it (x : After K V) (b : Bool) : (x.next b).it? = none ∨ (x.next b).it? = x.it? := by
  cases x with
  | los k v d a => cases b <;> exact .inl rfl
  | lad o => cases o <;> exact .inl rfl
  | iter => exact .inr rfl
  | _ => exact .inl rfl

theorem afterDel_sub (a : Nat) (x : After K V) : afterDel c a (x.sub r st) = (afterDel c a x).sub r st := by
  unfold afterDel
  split
  · rfl
  · exact next_sub x true

theorem afterDel_it (a : Nat) (x : After K V) : (afterDel c a x).it? = none ∨ (afterDel c a x).it? = x.it? := by
  unfold afterDel
  split
  · exact .inr rfl
  · exact next_it x true

theorem live_sub (k : K) (a : Nat) (x : Site K V) : (x.sub r st).live c k a = (x.live c k a).sub r st := by
  cases x with
  | lad => exact afterDel_sub (r := r) (st := st) a (.lad (some a))
  | _ => rfl

theorem live_it (k : K) (a : Nat) (x : Site K V) : (x.live c k a).it? = none ∨ (x.live c k a).it? = x.it? := by
  cases x with
  | lad => exact afterDel_it a (.lad (some a))
  | range => exact .inr rfl
  | _ => exact .inl rfl

theorem dead_sub (k : K) (a : Nat) (x : Site K V) : (x.sub r st).dead c k a = (x.dead c k a).sub r st := by
  cases x with
  | lad => exact afterDel_sub (r := r) (st := st) a (.lad none)
  | _ => rfl

theorem dead_it (k : K) (a : Nat) (x : Site K V) : (x.dead c k a).it? = none ∨ (x.dead c k a).it? = x.it? := by
  cases x with
  | lad => exact afterDel_it a (.lad none)
  | range => exact .inr rfl
  | _ => exact .inl rfl

theorem visit_sub (it : Iter K) (k : K) (a : Nat) : (it.sub r st).visit k a = (it.visit k a : PC K V).sub r st := by
  obtain ⟨kind, ks, n⟩ := it
  cases kind <;> rfl

theorem visit_it (it : Iter K) (k : K) (a : Nat) : (it.visit k a : PC K V).it? = some it := by
  obtain ⟨kind, ks, n⟩ := it
  cases kind <;> rfl

theorem cont_it (pc : PC K V) (x : RWMap.Res K Nat) : (pc.cont c x).it? = none ∨ (pc.cont c x).it? = pc.it? := by
  unfold PC.cont
  split
  case h_2 => exact .inl rfl
  case h_3 o _ => cases o <;> exact .inl rfl
  case h_7 => exact afterDel_it _ _
  case h_10 => exact afterDel_it _ _
  case h_11 => exact next_it _ _
  case h_13 => exact .inr rfl
  all_goals exact .inl rfl

theorem enter_sub (op : Op K V) : (enter op).sub r st = enter op := by cases op <;> rfl
theorem enter_it (op : Op K V) : (enter op).it? = none := by cases op <;> rfl

variable [DecidableEq K]

/-- A step of the cache's own is the same step in the other machine. -/
theorem loc_sub {s as s' : State K V} {i : Nat} {inp : In K V} {e : Ev K V} {hist : List (Map K)} (he : as.ents = s.ents) (hr : as.reg = s.reg)
    (hpc : as.pc i = (s.pc i).sub r st) (hop : (s.pc i).mapOp c = none) (hit : (s.pc i).isIter = false)
    (hs : step c [] s i inp = some (s', e)) :
    ∃ pc', s'.pc = Function.update s.pc i pc' ∧
      step c hist as i inp = some (⟨as.m, s'.ents, s'.reg, Function.update as.pc i (pc'.sub r st)⟩, e) ∧
      (pc'.it? = none ∨ pc'.it? = (s.pc i).it?) := by
  cases hp : s.pc i <;> rw [hp] at hop hit hpc <;> simp only [PC.mapOp, PC.isIter, reduceCtorEq] at hop hit <;>
    cases inp <;> simp only [step, hp, reduceCtorEq, Option.some.injEq, Prod.mk.injEq] at hs <;>
    simp only [PC.sub] at hpc <;> simp only [step, hpc, he, hr]
  case idle.call op => 
    obtain ⟨rfl, rfl⟩ := hs
    exact ⟨_, rfl, by rw [enter_sub]; simp [State.go, he, hr], .inl (enter_it op)⟩
  case chkExp.go k a now x =>
    cases hx : s.ents[a]? with
    | none =>
      simp only [hx, Option.some.injEq, Prod.mk.injEq] at hs ⊢
      obtain ⟨rfl, rfl⟩ := hs
      exact ⟨_, rfl, by simp [State.go, he, hr, PC.sub], .inl rfl⟩
    | some y =>
      simp only [hx, Option.some.injEq, Prod.mk.injEq] at hs ⊢
      obtain ⟨rfl, rfl⟩ := hs
      refine ⟨_, rfl, ?_, ?_⟩
      · simp only [State.go, he, hr, live_sub, dead_sub, and_true]
        split <;> rfl
      · split
        · exact dead_it k a x
        · exact live_it k a x
  case cbCall.go a x =>
    cases hx : s.ents[a]? <;>
      (simp only [hx, Option.some.injEq, Prod.mk.injEq] at hs ⊢
       obtain ⟨rfl, rfl⟩ := hs)
    · exact ⟨_, rfl, by simp [State.go, he, hr, PC.sub], .inl rfl⟩
    · exact ⟨_, rfl, by simp [State.go, he, hr, PC.sub], .inr rfl⟩
  case cbRun.cbFin x b =>
    obtain ⟨rfl, rfl⟩ := hs
    refine ⟨_, rfl, ?_, ?_⟩
    · simp only [State.go, he, hr, next_sub]
      cases b <;> rfl
    · cases b
      · exact .inl rfl
      · exact next_it x true
  case cvEq.go k a v =>
    cases hx : s.ents[a]? with
    | none =>
      simp only [hx, Option.some.injEq, Prod.mk.injEq] at hs ⊢
      obtain ⟨rfl, rfl⟩ := hs
      exact ⟨_, rfl, by simp [State.go, he, hr, PC.sub], .inl rfl⟩
    | some y =>
      simp only [hx, Option.some.injEq, Prod.mk.injEq] at hs ⊢
      obtain ⟨rfl, rfl⟩ := hs
      refine ⟨_, rfl, ?_, ?_⟩
      · simp only [State.go, he, hr, and_true]
        split <;> rfl
      · split <;> exact .inl rfl
  case clr.go =>
    cases hc : c.hasCb
    · simp [hc] at hop
    · simp only [hc, if_true, Option.some.injEq, Prod.mk.injEq] at hs ⊢
      obtain ⟨rfl, rfl⟩ := hs
      exact ⟨_, rfl, by simp [State.go, he, hr, PC.sub], .inl rfl⟩
  case tChk.go k a now it =>
    cases hx : s.ents[a]? with
    | none =>
      simp only [hx, Option.some.injEq, Prod.mk.injEq] at hs ⊢
      obtain ⟨rfl, rfl⟩ := hs
      exact ⟨_, rfl, by simp [State.go, he, hr, PC.sub], .inl rfl⟩
    | some y =>
      simp only [hx, Option.some.injEq, Prod.mk.injEq] at hs ⊢
      obtain ⟨rfl, rfl⟩ := hs
      refine ⟨_, rfl, ?_, ?_⟩
      · simp only [State.go, he, hr, and_true]
        split <;> rfl
      · split <;> exact .inr rfl
  case fRun.fFin it b =>
    obtain ⟨rfl, rfl⟩ := hs
    refine ⟨_, rfl, ?_, ?_⟩
    · simp only [State.go, he, hr]
      rcases b with _ | b
      · rfl
      · cases b <;> rfl
    · rcases b with _ | b
      · exact .inl rfl
      · cases b
        · exact .inl rfl
        · exact .inr rfl
  case tkReg.go =>
    obtain ⟨rfl, rfl⟩ := hs
    refine ⟨_, rfl, ?_, ?_⟩
    · simp only [State.go, he, hr, and_true]
      split <;> rfl
    · split <;> exact .inl rfl
  case valGet.go a =>
    obtain ⟨rfl, rfl⟩ := hs
    exact ⟨_, rfl, by simp [State.go, he, hr, PC.sub], .inl rfl⟩
  case ieChk.go a _ | addE.go a _ | setE.go a _ =>
    cases hx : s.ents[a]? <;>
      (simp only [hx, Option.some.injEq, Prod.mk.injEq] at hs ⊢
       obtain ⟨rfl, rfl⟩ := hs
       exact ⟨_, rfl, by simp [State.go, he, hr, PC.sub], .inl rfl⟩)
  all_goals
    (obtain ⟨rfl, rfl⟩ := hs
     exact ⟨_, rfl, by simp [State.go, State.mk_, he, hr, PC.sub], by first | exact .inl rfl | exact .inr rfl⟩)

/-- An operation of the map in the other machine: one step. -/
theorem map_sub {as : State K V} {i : Nat} {hist : List (Map K)} {pc : PC K V} {op : RWMap.Op K Nat} {A : AMap K Nat}
    (hpc : as.pc i = pc.sub r st) (hop : pc.mapOp c = some op) (hm : op.isMap = true) (hA : ∀ k, as.m.get k = A k) :
    ∃ m' e, step c hist as i .go =
        some (⟨m', as.ents, as.reg, Function.update as.pc i ((pc.cont c (apply ptrEq op A).2).sub r st)⟩, e) ∧
      e.visible = false ∧ ∀ k, m'.get k = (apply ptrEq op A).1 k := by
  obtain rfl : A = fun k => as.m.get k := funext fun k => (hA k).symm
  cases pc <;> simp only [PC.mapOp, reduceCtorEq, Option.some.injEq] at hop <;> simp only [PC.sub] at hpc
  case stPut k a =>
    subst hop
    refine ⟨_, _, by simp only [step, hpc]; rfl, rfl, fun x => ?_⟩
    simp only [apply, AMap.set, Map.get_set, eq_comm]
  case ldGet k x =>
    subst hop
    simp only [step, hpc, apply]
    cases hx : as.m.get k
    · exact ⟨_, _, rfl, rfl, fun x => rfl⟩
    · exact ⟨_, _, by cases x <;> rfl, rfl, fun x => rfl⟩
  case losTry k v d a =>
    subst hop
    simp only [step, hpc, apply]
    cases hx : as.m.get k
    · refine ⟨_, _, rfl, rfl, fun x => ?_⟩
      simp only [AMap.set, Map.get_set, eq_comm]
    · exact ⟨_, _, rfl, rfl, fun x => rfl⟩
  case delTry k =>
    subst hop
    simp only [step, hpc, apply]
    cases hx : as.m.get k
    · refine ⟨_, _, rfl, rfl, fun x => ?_⟩
      simp only [AMap.set]
      split
      · subst_vars; exact hx
      · rfl
    · refine ⟨_, _, by simp only [PC.cont, ← afterDel_sub]; rfl, rfl, fun x => ?_⟩
      simp only [AMap.set, Map.get_erase, eq_comm]
  case ladTry k =>
    subst hop
    simp only [step, hpc, apply]
    cases hx : as.m.get k
    · refine ⟨_, _, rfl, rfl, fun x => ?_⟩
      simp only [AMap.set]
      split
      · subst_vars; exact hx
      · rfl
    · refine ⟨_, _, rfl, rfl, fun x => ?_⟩
      simp only [AMap.set, Map.get_erase, eq_comm]
  case cad k a x =>
    subst hop
    simp only [step, hpc, apply]
    cases hx : as.m.get k with
    | none =>
      exact ⟨_, _, by simp only [PC.cont, ← next_sub, reduceCtorEq, if_false]; rfl, rfl, fun x => rfl⟩
    | some b =>
      by_cases hb : b = a
      · subst hb
        simp only [ptrEq, beq_self_eq_true, if_true]
        refine ⟨_, _, by simp only [PC.cont, ← afterDel_sub]; rfl, rfl, fun x => ?_⟩
        simp only [AMap.set, Map.get_erase, eq_comm]
      · have hbb : (b == a) = false := by simp [hb]
        simp only [ptrEq, hbb, Option.some.injEq, hb, if_false]
        exact ⟨_, _, by simp only [PC.cont, ← next_sub]; rfl, rfl, fun x => rfl⟩
  case clr =>
    cases hc : c.hasCb <;> simp only [hc, if_true, if_false, reduceCtorEq, Option.some.injEq, Bool.false_eq_true] at hop
    subst hop
    simp only [step, hpc, hc]
    exact ⟨_, _, rfl, rfl, fun x => rfl⟩
  case iStart => subst hop; cases hm

theorem mapOp_isMap {pc : PC K V} {op : RWMap.Op K Nat} (h : pc.mapOp c = some op) (hs : ∀ kind, pc ≠ .iStart kind) : op.isMap = true := by
  cases pc <;> simp only [PC.mapOp, reduceCtorEq, Option.some.injEq] at h
  case iStart => exact absurd rfl (hs _)
  case clr =>
    split at h
    · cases h
    · cases h; rfl
  all_goals (subst h; rfl)

end Verif.SyncCache
