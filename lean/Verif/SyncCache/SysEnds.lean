import Verif.SyncCache.Sub
import Verif.SyncCache.Whole
import Verif.SyncCache.Finish
import Verif.RWMap.Handover
import Verif.RWMap.Ends
/-!
# All calls of SyncCache come to an end, over the steps of RWMap (C154)

C133 has the operations of the map in one step. Here they take the steps of the `RWMap` machine, where calls can wait for the mutex and start over.
-/
set_option linter.unusedSectionVars false
namespace Verif.SyncCache
open Verif.RWMap (total)
variable {K V : Type} [DecidableEq K]
/-! ## Specification -/

/-- A step of the system in which no call of the cache is made: a step of the cache's own, by a call in progress; a step of a call of the map. -/
inductive SysGoes (c : Cfg V) (prog : Nat → RWMap.Op K Nat) : List (Item K V) × Client K V × RWMap.State K Nat →
    List (Item K V) × Client K V × RWMap.State K Nat → Prop where
  | loc {T s m i inp s' e} : s.st.pc i ≠ .idle → s.loc c i inp = some (s', e) → SysGoes c prog (T, s, m) (T ++ [.loc e], s', m)
  | tau {T s m n ord m'} : (∀ l, (ord l).Perm l) → RWMap.next ptrEq prog ord true m n = some m' → RWMap.event prog m n = [] →
      SysGoes c prog (T, s, m) (T, s, m')
  | sync {T s m n ord m' e i s'} : (∀ l, (ord l).Perm l) → RWMap.next ptrEq prog ord true m n = some m' →
      RWMap.event prog m n = [e] → s.sync c prog i e = some s' → SysGoes c prog (T, s, m) (T ++ [.map e], s', m')

variable {c : Cfg V} {prog : Nat → RWMap.Op K Nat} {T T' : List (Item K V)} {s s' : Client K V} {m m' : RWMap.State K Nat} {i j n : Nat}
  {h : List (RWMap.Ev K Nat)} {ord : List (K × Nat) → List (K × Nat)} {e : RWMap.Ev K Nat}

theorem SysGoes.sys {x x' : List (Item K V) × Client K V × RWMap.State K Nat} (h : SysGoes c prog x x') (hs : Sys c prog x.1 x.2.1 x.2.2) :
    Sys c prog x'.1 x'.2.1 x'.2.2 := by
  cases h with
  | loc _ h => exact hs.loc h
  | tau h1 h2 h3 => exact hs.tau h1 h2 h3
  | sync h1 h2 h3 h4 => exact hs.sync h1 h2 h3 h4

/-! ## What the map has to do -/

/-- `Range` of the map has taken its list of entries. -/
def mlisted : RWMap.PC K Nat → Bool
  | .rng _ _ | .fin _ | .done _ => true
  | _ => false

/-- How many of them are left. -/
def mleft : RWMap.PC K Nat → Nat
  | .rng es _ => es.length
  | _ => 0

theorem mlisted_next {go : Bool} (hn : RWMap.next ptrEq prog ord go m n = some m') (j : Nat) (hl : mlisted (m.pc j) = true) :
    mlisted (m'.pc j) = true ∧ mleft (m'.pc j) ≤ mleft (m.pc j) := by
  by_cases hj : j = n
  · subst hj
    cases hp : m.pc j with
    | rng es acc =>
      cases es with
      | nil =>
        simp only [RWMap.next, hp, Option.some.injEq] at hn
        subst hn; simp [RWMap.State.goto, mlisted, mleft]
      | cons x es =>
        obtain ⟨k, e⟩ := x
        simp only [RWMap.next, hp] at hn
        split at hn
        · simp only [Option.some.injEq] at hn; subst hn; simp [RWMap.State.goto, mlisted, mleft]
        · split at hn <;> simp only [Option.some.injEq] at hn <;> subst hn <;> simp [RWMap.State.goto, mlisted, mleft]
    | fin r => simp only [RWMap.next, hp, Option.some.injEq] at hn; subst hn; simp [RWMap.State.goto, mlisted, mleft]
    | done r => simp [RWMap.next, hp] at hn
    | _ => rw [hp] at hl; simp [mlisted] at hl
  · rw [RWMap.next_other hn hj]; exact ⟨hl, Nat.le_refl _⟩

/-- A visit takes one off the list. -/
theorem mleft_visit {k : K} {a : Nat} (hn : RWMap.next ptrEq prog ord true m n = some m') (he : RWMap.event prog m n = [.visit j k a]) :
    j = n ∧ mlisted (m.pc n) = true ∧ mlisted (m'.pc n) = true ∧ mleft (m'.pc n) + 1 = mleft (m.pc n) := by
  cases hp : m.pc n with
  | rng es acc =>
    cases es with
    | nil => simp [RWMap.event, hp] at he
    | cons x es =>
      obtain ⟨k', e⟩ := x
      simp only [RWMap.event, hp] at he
      simp only [RWMap.next, hp] at hn
      split at he
      · next v hv =>
        rw [hv] at hn
        simp only [List.cons.injEq, RWMap.Ev.visit.injEq] at he
        simp only [if_true, Option.some.injEq] at hn
        subst hn
        exact ⟨he.1.1.symm, by simp [RWMap.State.goto, mlisted, mleft]⟩
      · cases he
  | _ => simp [RWMap.event, hp] at he

theorem event_ret {r : RWMap.Res K Nat} (he : RWMap.event prog m n = [.ret j r]) : j = n ∧ m.pc n = .fin r := by
  cases hp : m.pc n with
  | fin r' => simp only [RWMap.event, hp, List.cons.injEq, RWMap.Ev.ret.injEq, and_true] at he; exact ⟨he.1.symm, by rw [he.2]⟩
  | rng es acc =>
    simp only [RWMap.event, hp] at he
    cases es with
    | nil => cases he
    | cons x es => obtain ⟨k, e⟩ := x; simp only at he; split at he <;> cases he
  | _ => simp [RWMap.event, hp] at he

theorem event_inv (he : RWMap.event prog m n = [.inv j]) : j = n ∧ m.pc n = .idle := by
  cases hp : m.pc n with
  | idle => simp only [RWMap.event, hp, List.cons.injEq, RWMap.Ev.inv.injEq, and_true] at he; exact ⟨he.symm, rfl⟩
  | rng es acc =>
    simp only [RWMap.event, hp] at he
    cases es with
    | nil => cases he
    | cons x es => obtain ⟨k, e⟩ := x; simp only at he; split at he <;> cases he
  | _ => simp [RWMap.event, hp] at he

/-! ## Puts and removals -/

/-- The calls that have returned, and what. -/
def rets : List (RWMap.Ev K Nat) → List (Nat × RWMap.Res K Nat)
  | [] => []
  | .ret n r :: h => (n, r) :: rets h
  | _ :: h => rets h

/-- The calls that may put an entry into the map. -/
def putters (prog : Nat → RWMap.Op K Nat) : List (RWMap.Ev K Nat) → List Nat
  | [] => []
  | .inv n :: h => match prog n with
    | .swap _ _ | .loadOrStore _ _ | .compareAndSwap _ _ _ => n :: putters prog h
    | _ => putters prog h
  | _ :: h => putters prog h

/-- Calls of `LoadOrStore` that found an entry. -/
def isFound (prog : Nat → RWMap.Op K Nat) (x : Nat × RWMap.Res K Nat) : Bool :=
  match prog x.1, x.2 with
  | .loadOrStore _ _, .los _ true => true
  | _, _ => false

/-- Calls of `CompareAndDelete` that removed an entry. -/
def isCad (prog : Nat → RWMap.Op K Nat) (x : Nat × RWMap.Res K Nat) : Bool :=
  match prog x.1, x.2 with
  | .compareAndDelete _ _, .bool true => true
  | _, _ => false

theorem rets_append (h h' : List (RWMap.Ev K Nat)) : rets (h ++ h') = rets h ++ rets h' := by
  induction h with
  | nil => rfl
  | cons x h ih => cases x <;> simp [rets, ih]

theorem putters_append (h h' : List (RWMap.Ev K Nat)) : putters prog (h ++ h') = putters prog h ++ putters prog h' := by
  induction h with
  | nil => rfl
  | cons x h ih =>
    cases x with
    | inv n => cases hp : prog n <;> simp [putters, hp, ih]
    | _ => simp [putters, ih]

theorem mem_rets {r : RWMap.Res K Nat} : (n, r) ∈ rets h ↔ .ret n r ∈ h := by
  induction h with
  | nil => simp [rets]
  | cons x h ih => cases x <;> simp [rets, ih]

theorem mem_putters {k : K} {v : Nat} (hs : (prog n).Stored k v) (hi : .inv n ∈ h) : n ∈ putters prog h := by
  induction h with
  | nil => cases hi
  | cons x h ih =>
    cases x with
    | inv j =>
      rcases List.mem_cons.1 hi with hi | hi
      · cases hi
        rcases hs with hs | hs | ⟨u, hs⟩ <;> simp [putters, hs]
      · have := ih hi
        cases hp : prog j <;> simp [putters, hp, this]
    | _ =>
      rcases List.mem_cons.1 hi with hi | hi
      · cases hi
      · simpa [putters] using ih hi

/-- A call returns once. -/
theorem rets_nodup (hx : RWMap.Exec ptrEq prog h m) : ((rets h).map Prod.fst).Nodup ∧ ∀ n r, (n, r) ∈ rets h → m.pc n = .done r := by
  induction hx with
  | init => exact ⟨List.nodup_nil, fun n r hr => by simp [rets] at hr⟩
  | @step h m evs m' hx hs ih =>
    obtain ⟨n, ord, go, ho, hn, rfl⟩ := hs
    have hd : ∀ j r, m.pc j = .done r → m'.pc j = .done r := by
      intro j r hj
      have : j ≠ n := by rintro rfl; simp [RWMap.next, hj] at hn
      rw [RWMap.next_other hn this]; exact hj
    by_cases hf : ∃ r, m.pc n = .fin r
    · obtain ⟨r, hf⟩ := hf
      have he : RWMap.event prog m n = [.ret n r] := by simp [RWMap.event, hf]
      rw [he, rets_append]
      simp only [rets, List.map_append, List.map_cons, List.map_nil]
      refine ⟨List.nodup_append.2 ⟨ih.1, by simp, ?_⟩, ?_⟩
      · intro a ha b hb
        obtain ⟨⟨a', r'⟩, ha', rfl⟩ := List.mem_map.1 ha
        rw [List.mem_singleton] at hb
        subst hb
        rintro rfl
        have := ih.2 _ _ ha'
        rw [hf] at this; cases this
      · intro j r' hj
        rcases List.mem_append.1 hj with hj | hj
        · exact hd _ _ (ih.2 _ _ hj)
        · rw [List.mem_singleton] at hj; cases hj
          simp only [RWMap.next, hf, Option.some.injEq] at hn
          subst hn; simp [RWMap.State.goto]
    · have he : rets (RWMap.event prog m n) = [] := by
        cases hp : m.pc n with
        | fin r => exact absurd ⟨r, hp⟩ hf
        | rng es acc =>
          cases es with
          | nil => simp [RWMap.event, hp, rets]
          | cons x es => obtain ⟨k, e⟩ := x; simp only [RWMap.event, hp]; split <;> rfl
        | _ => simp [RWMap.event, hp, rets]
      rw [rets_append, he, List.append_nil]
      exact ⟨ih.1, fun j r hj => hd _ _ (ih.2 _ _ hj)⟩

/-- What a call returned is the result of its operation on some map. -/
theorem ret_result (hx : RWMap.Exec ptrEq prog h m) (hm : (prog n).isMap = true) {r : RWMap.Res K Nat} (hr : .ret n r ∈ h) :
    .inv n ∈ h ∧ ∃ A, r = RWMap.resultOn ptrEq prog n A := by
  obtain ⟨L, H⟩ := RWMap.rwmap_linearizable hx
  obtain ⟨h1, h2, hh⟩ := List.append_of_mem hr
  obtain ⟨L1, L2, hL, h3, -⟩ := RWMap.lin_ret_split H hh
  obtain ⟨hi, he, -⟩ := RWMap.ret_once H hm hL
  obtain ⟨X, Y, rfl⟩ := List.append_of_mem he
  refine ⟨?_, _, (H.2 n hm).2 X (Y ++ .ret n r :: L2) r (by rw [hL]; simp) (by simp)⟩
  rw [hh, ← h3]
  exact List.mem_append_left _ (RWMap.mem_inv_fm.2 hi)

/-- Every removal by `CompareAndDelete` has a call that put the entry in, and that is not a `LoadOrStore` that found one. -/
theorem balance (hx : RWMap.Exec ptrEq prog h m) :
    ((rets h).filter (isFound prog)).length + ((rets h).filter (isCad prog)).length ≤ (putters prog h).length := by
  obtain ⟨src, hl⟩ := RWMap.rwmap_ledger hx
  have hnd := (rets_nodup hx).1
  have hcad : ∀ n r, (n, r) ∈ (rets h).filter (isCad prog) → ∃ k a, prog n = .compareAndDelete k a ∧ r = .bool true ∧ .ret n r ∈ h ∧
      (prog n).Took ptrEq k r a := by
    intro n r hr
    obtain ⟨hr, hc⟩ := List.mem_filter.1 hr
    unfold isCad at hc
    split at hc
    · next k a h1 h2 =>
      simp only at h1 h2
      exact ⟨k, a, h1, h2, mem_rets.1 hr, .inr (.inr (.inl ⟨a, h1, h2, by simp [ptrEq]⟩))⟩
    · cases hc
  have hfound : ∀ n r, (n, r) ∈ (rets h).filter (isFound prog) → ∃ k v w, prog n = .loadOrStore k v ∧ r = .los w true ∧ .ret n r ∈ h := by
    intro n r hr
    obtain ⟨hr, hc⟩ := List.mem_filter.1 hr
    unfold isFound at hc
    split at hc
    · next k v w h1 h2 =>
      simp only at h1 h2
      exact ⟨k, v, w, h1, h2, mem_rets.1 hr⟩
    · cases hc
  have sub : ((rets h).filter (isFound prog)).map Prod.fst ++ ((rets h).filter (isCad prog)).map (fun x => src x.1) ⊆ putters prog h := by
    intro x hx'
    rcases List.mem_append.1 hx' with hx' | hx'
    · obtain ⟨⟨n, r⟩, hn, rfl⟩ := List.mem_map.1 hx'
      obtain ⟨k, v, w, h1, h2, h3⟩ := hfound n r hn
      exact mem_putters (.inr (.inl h1)) (ret_result hx (by rw [h1]; rfl) h3).1
    · obtain ⟨⟨n, r⟩, hn, rfl⟩ := List.mem_map.1 hx'
      obtain ⟨k, a, h1, h2, h3, h4⟩ := hcad n r hn
      obtain ⟨⟨u, -, hs, -⟩, -, hb, -⟩ := hl k n r a h3 (.inl h4)
      obtain ⟨p, q, hpq⟩ := List.append_of_mem h3
      exact mem_putters hs (by rw [hpq]; exact List.mem_append_left _ (hb _ _ hpq))
  have nd : (((rets h).filter (isFound prog)).map Prod.fst ++ ((rets h).filter (isCad prog)).map (fun x => src x.1)).Nodup := by
    refine List.nodup_append.2 ⟨?_, ?_, ?_⟩
    · exact hnd.sublist (List.Sublist.map _ List.filter_sublist)
    · have : (((rets h).filter (isCad prog)).map Prod.fst).Nodup := hnd.sublist (List.Sublist.map _ List.filter_sublist)
      have e : (fun x : Nat × RWMap.Res K Nat => src x.1) = src ∘ Prod.fst := rfl
      rw [e, ← List.map_map]
      refine List.Nodup.map_on ?_ this
      intro x hx' y hy hxy
      obtain ⟨⟨n, r⟩, hn, rfl⟩ := List.mem_map.1 hx'
      obtain ⟨⟨j, r'⟩, hj, rfl⟩ := List.mem_map.1 hy
      by_contra hne
      obtain ⟨k, a, h1, h2, h3, h4⟩ := hcad n r hn
      obtain ⟨k', a', h1', h2', h3', h4'⟩ := hcad j r' hj
      have := ((hl k n r a h3 (.inl h4)).2.2.2 k' j r' a' h3' h4' hxy.symm (Ne.symm hne)).1
      simp only [RWMap.Op.Saw] at this
      rw [h1] at this
      rcases this with ⟨h, -⟩ | ⟨_, h, -⟩ <;> cases h
    · intro x hx' y hy hxy
      obtain ⟨⟨n, r⟩, hn, rfl⟩ := List.mem_map.1 hx'
      obtain ⟨⟨j, r'⟩, hj, rfl⟩ := List.mem_map.1 hy
      obtain ⟨k, v, w, h1, h2, h3⟩ := hfound n r hn
      obtain ⟨k', a', h1', h2', h3', h4'⟩ := hcad j r' hj
      obtain ⟨⟨u, -, -, hp⟩, -⟩ := hl k' j r' a' h3' (.inl h4')
      simp only at hxy
      have := hp r (by rw [← hxy]; exact h3)
      rw [← hxy, h1, h2] at this
      simp [RWMap.Op.Put] at this
  have := (List.subperm_of_subset nd sub).length_le
  simpa using this

/-! ## Which calls of the map threads are in -/

/-- The calls of the map that have been made. -/
abbrev calls (T : List (Item K V)) : List (RWMap.Ev K Nat) := T.filterMap Item.map?

theorem calls_map (T : List (Item K V)) (e : RWMap.Ev K Nat) : calls (T ++ [.map e]) = calls T ++ [e] := by
  simp [calls, List.filterMap_append, Item.map?]

theorem calls_loc (T : List (Item K V)) (e : Ev K V) : calls (T ++ [.loc e]) = calls T := by
  simp [calls, List.filterMap_append, Item.map?]

/-- Thread `i` is in the call `n` of the map. -/
def Holds (s : Client K V) (i n : Nat) : Prop := s.wait i = some n ∨ ∃ it, (s.st.pc i).it? = some it ∧ it.start = n

def Running (h : List (RWMap.Ev K Nat)) (n : Nat) : Prop := .inv n ∈ h ∧ ∀ r, .ret n r ∉ h

theorem Holds.mk_it {it : Iter K} (h : (s.st.pc i).it? = some it) (hs : it.start = n) : Holds s i n := .inr ⟨it, h, hs⟩

structure SysInv (c : Cfg V) (prog : Nat → RWMap.Op K Nat) (h : List (RWMap.Ev K Nat)) (s : Client K V) : Prop where
  wait : ∀ i n, s.wait i = some n → (s.st.pc i).mapOp c = some (prog n) ∧ ∀ kind, s.st.pc i ≠ .iStart kind
  iter : ∀ i it, (s.st.pc i).it? = some it → it.rest = [] ∧ prog it.start = .range
  run : ∀ i n, Holds s i n → Running h n
  one : ∀ i j n, Holds s i n → Holds s j n → i = j

theorem SysInv.apart (I : SysInv c prog h s) {it : Iter K} (hw : s.wait i = some n) (hi : (s.st.pc i).it? = some it) : it.start ≠ n := by
  rintro rfl
  have h1 := I.wait i _ hw
  have := mapOp_isMap h1.1 h1.2
  rw [(I.iter i it hi).2] at this
  cases this

/-- A step of the cache's own. -/
theorem loc_cases {inp : In K V} {e : Ev K V} (h : s.loc c i inp = some (s', e)) :
    s.wait i = none ∧ (s.st.pc i).mapOp c = none ∧ (s.st.pc i).isIter = false ∧ step c [] s.st i inp = some (s'.st, e) ∧ s'.wait = s.wait ∧
    (∀ j, j ≠ i → s'.st.pc j = s.st.pc j) ∧ ((s'.st.pc i).it? = none ∨ (s'.st.pc i).it? = (s.st.pc i).it?) := by
  unfold Client.loc at h
  split at h
  · next hc =>
    cases hs : step c [] s.st i inp with
    | none => rw [hs] at h; cases h
    | some x =>
      rw [hs] at h
      simp only [Option.map_some, Option.some.injEq, Prod.mk.injEq] at h
      obtain ⟨rfl, rfl⟩ := h
      refine ⟨hc.1, hc.2.1, hc.2.2, rfl, rfl, fun j hj => (step_Step hs).other hj, ?_⟩
      obtain ⟨pc', hp, -, hi⟩ := loc_sub (r := []) (st := 0) (s := s.st) (as := { s.st with pc := Function.update s.st.pc i ((s.st.pc i).sub [] 0) }) (hist := [])
        rfl rfl (Function.update_self _ _ _) hc.2.1 hc.2.2 hs
      simp only [hp, Function.update_self]
      exact hi
  · cases h

theorem Holds.loc {inp : In K V} {e : Ev K V} (h : s.loc c i inp = some (s', e)) (hh : Holds s' j n) : Holds s j n := by
  obtain ⟨h1, h2, h3, h4, h5, h6, h7⟩ := loc_cases h
  rcases hh with hh | ⟨it, hh, hs⟩
  · exact .inl (h5 ▸ hh)
  · by_cases hj : j = i
    · subst hj
      rcases h7 with h7 | h7
      · rw [h7] at hh; cases hh
      · exact .inr ⟨it, h7 ▸ hh, hs⟩
    · exact .inr ⟨it, h6 j hj ▸ hh, hs⟩

theorem SysInv.loc (I : SysInv c prog h s) {inp : In K V} {e : Ev K V} (hl : s.loc c i inp = some (s', e)) : SysInv c prog h s' := by
  obtain ⟨h1, h2, h3, h4, h5, h6, h7⟩ := loc_cases hl
  refine ⟨?_, ?_, fun j n hh => I.run j n (hh.loc hl), fun j l n hj hl' => I.one j l n (hj.loc hl) (hl'.loc hl)⟩
  · intro j n hw
    rw [h5] at hw
    have hj : j ≠ i := by rintro rfl; rw [h1] at hw; cases hw
    rw [h6 j hj]; exact I.wait j n hw
  · intro j it hh
    by_cases hj : j = i
    · subst hj
      rcases h7 with h7 | h7
      · rw [h7] at hh; cases hh
      · exact I.iter j it (h7 ▸ hh)
    · exact I.iter j it (h6 j hj ▸ hh)

theorem Running.snoc (hr : Running h n) (hne : ∀ r, e ≠ .ret n r) : Running (h ++ [e]) n :=
  ⟨List.mem_append_left _ hr.1, fun r hm => by
    rcases List.mem_append.1 hm with hm | hm
    · exact hr.2 r hm
    · rw [List.mem_singleton] at hm; exact hne r hm.symm⟩

/-- The cases of an event in which the cache takes part. -/
theorem sync_cases (h : s.sync c prog i e = some s') :
    (∃ n kind, e = .inv n ∧ s.wait i = none ∧ (s.st.pc i).mapOp c = some (prog n) ∧ s.st.pc i = .iStart kind ∧
      s' = ⟨s.st.go i (.iter ⟨kind, [], n⟩), s.wait⟩) ∨
    (∃ n, e = .inv n ∧ s.wait i = none ∧ (s.st.pc i).mapOp c = some (prog n) ∧ (∀ kind, s.st.pc i ≠ .iStart kind) ∧
      s' = ⟨s.st, Function.update s.wait i (some n)⟩) ∨
    (∃ n k a kind, e = .visit n k a ∧ s.wait i = none ∧ s.st.pc i = .iter ⟨kind, [], n⟩ ∧
      s' = ⟨s.st.go i (Iter.visit ⟨kind, [], n⟩ k a), s.wait⟩) ∨
    (∃ n r, e = .ret n r ∧ s.wait i = some n ∧ s' = ⟨s.st.go i ((s.st.pc i).cont c r), Function.update s.wait i none⟩) ∨
    (∃ n kind acc, e = .ret n (.visited acc false) ∧ s.wait i = none ∧ s.st.pc i = .iter ⟨kind, [], n⟩ ∧
      s' = ⟨s.st.go i (.done .unit), s.wait⟩) := by
  cases e with
  | inv n =>
    simp only [Client.sync] at h
    split at h
    · next hc =>
      split at h
      · next kind hk => cases h; exact .inl ⟨n, kind, rfl, hc.1, hc.2, hk, rfl⟩
      · next hk => cases h; exact .inr (.inl ⟨n, rfl, hc.1, hc.2, fun kind hh => hk kind hh, rfl⟩)
    · cases h
  | visit n k a =>
    simp only [Client.sync] at h
    split at h
    · next kind l hw hp =>
      split at h
      · next hl => subst hl; cases h; exact .inr (.inr (.inl ⟨_, k, a, kind, rfl, hw, hp, rfl⟩))
      · cases h
    · cases h
  | ret n r =>
    simp only [Client.sync] at h
    split at h
    · next l hw =>
      split at h
      · next hl => subst hl; cases h; exact .inr (.inr (.inr (.inl ⟨_, r, rfl, hw, rfl⟩)))
      · cases h
    · next hw =>
      split at h
      · next kind l acc hp =>
        split at h
        · next hl => subst hl; cases h; exact .inr (.inr (.inr (.inr ⟨_, kind, acc, rfl, hw, hp, rfl⟩)))
        · cases h
      · cases h

theorem SysInv.sync (I : SysInv c prog h s) (hs : s.sync c prog i e = some s') (hnew : ∀ n, e = .inv n → .inv n ∉ h)
    (hnr : ∀ n r, e = .inv n → .ret n r ∉ h) : SysInv c prog (h ++ [e]) s' := by
  rcases sync_cases hs with ⟨n, kind, rfl, hw, ho, hp, rfl⟩ | ⟨n, rfl, hw, ho, hp, rfl⟩ | ⟨n, k, a, kind, rfl, hw, hp, rfl⟩ | ⟨n, r, rfl, hw, rfl⟩ |
    ⟨n, kind, acc, rfl, hw, hp, rfl⟩
  · have hpr : prog n = .range := by rw [hp] at ho; simpa [PC.mapOp] using ho.symm
    have other : ∀ j, j ≠ i → (s.st.go i (.iter ⟨kind, [], n⟩)).pc j = s.st.pc j := fun j hj => Function.update_of_ne hj _ _
    have self : (s.st.go i (.iter ⟨kind, [], n⟩)).pc i = .iter ⟨kind, [], n⟩ := Function.update_self _ _ _
    have old : ∀ j l, Holds ⟨s.st.go i (.iter ⟨kind, [], n⟩), s.wait⟩ j l → (j = i ∧ l = n) ∨ (j ≠ i ∧ Holds s j l) := by
      intro j l hh
      by_cases hj : j = i
      · subst hj
        rcases hh with hh | ⟨it, hh, hl⟩
        · rw [hw] at hh; cases hh
        · simp only [self, PC.it?, Option.some.injEq] at hh; subst hh; exact .inl ⟨rfl, hl.symm⟩
      · refine .inr ⟨hj, ?_⟩
        rcases hh with hh | ⟨it, hh, hl⟩
        · exact .inl hh
        · simp only [other j hj] at hh; exact .inr ⟨it, hh, hl⟩
    refine ⟨?_, ?_, ?_, ?_⟩
    · intro j l hh
      have hj : j ≠ i := by rintro rfl; simp only [hw] at hh; cases hh
      simp only [other j hj]; exact I.wait j l hh
    · intro j it hh
      by_cases hj : j = i
      · subst hj; simp only [self, PC.it?, Option.some.injEq] at hh; subst hh; exact ⟨rfl, hpr⟩
      · simp only [other j hj] at hh; exact I.iter j it hh
    · intro j l hh
      rcases old j l hh with ⟨rfl, rfl⟩ | ⟨-, hh⟩
      · exact ⟨by simp, fun r hm => by
          rcases List.mem_append.1 hm with hm | hm
          · exact hnr _ r rfl hm
          · simp at hm⟩
      · exact (I.run j l hh).snoc (by simp)
    · intro j l q hj hl
      rcases old j q hj with ⟨rfl, rfl⟩ | ⟨-, hj'⟩ <;> rcases old l _ hl with ⟨rfl, h2⟩ | ⟨-, hl⟩
      · rfl
      · exact absurd (I.run _ _ hl).1 (hnew _ rfl)
      · subst h2; exact absurd (I.run _ _ hj').1 (hnew _ rfl)
      · exact I.one j l q hj' hl
  · have old : ∀ j l, Holds ⟨s.st, Function.update s.wait i (some n)⟩ j l → (j = i ∧ l = n) ∨ Holds s j l := by
      intro j l hh
      by_cases hj : j = i
      · subst hj
        rcases hh with hh | hh
        · simp only [Function.update_self, Option.some.injEq] at hh; exact .inl ⟨rfl, hh.symm⟩
        · exact .inr (.inr hh)
      · rcases hh with hh | hh
        · simp only [Function.update_of_ne hj] at hh; exact .inr (.inl hh)
        · exact .inr (.inr hh)
    refine ⟨?_, I.iter, ?_, ?_⟩
    · intro j l hh
      by_cases hj : j = i
      · subst hj; simp only [Function.update_self, Option.some.injEq] at hh; subst hh; exact ⟨ho, hp⟩
      · simp only [Function.update_of_ne hj] at hh; exact I.wait j l hh
    · intro j l hh
      rcases old j l hh with ⟨rfl, rfl⟩ | hh
      · exact ⟨by simp, fun r hm => by
          rcases List.mem_append.1 hm with hm | hm
          · exact hnr _ r rfl hm
          · simp at hm⟩
      · exact (I.run j l hh).snoc (by simp)
    · intro j l q hj hl
      rcases old j q hj with ⟨rfl, rfl⟩ | hj' <;> rcases old l _ hl with ⟨rfl, h2⟩ | hl
      · rfl
      · exact absurd (I.run _ _ hl).1 (hnew _ rfl)
      · subst h2; exact absurd (I.run _ _ hj').1 (hnew _ rfl)
      · exact I.one j l q hj' hl
  · have other : ∀ j, j ≠ i → (s.st.go i (Iter.visit ⟨kind, [], n⟩ k a)).pc j = s.st.pc j := fun j hj => Function.update_of_ne hj _ _
    have self : (s.st.go i (Iter.visit ⟨kind, [], n⟩ k a)).pc i = Iter.visit ⟨kind, [], n⟩ k a := Function.update_self _ _ _
    have its : ∀ j, ((s.st.go i (Iter.visit ⟨kind, [], n⟩ k a)).pc j).it? = (s.st.pc j).it? := by
      intro j
      by_cases hj : j = i
      · subst hj; rw [self, visit_it, hp]; rfl
      · rw [other j hj]
    have old : ∀ j l, Holds ⟨s.st.go i (Iter.visit ⟨kind, [], n⟩ k a), s.wait⟩ j l → Holds s j l := by
      intro j l hh
      rcases hh with hh | ⟨it, hh, hl⟩
      · exact .inl hh
      · simp only [its] at hh; exact .inr ⟨it, hh, hl⟩
    refine ⟨?_, ?_, fun j l hh => (I.run j l (old j l hh)).snoc (by simp), fun j l q hj hl => I.one j l q (old _ _ hj) (old _ _ hl)⟩
    · intro j l hh
      have hj : j ≠ i := by rintro rfl; simp only [hw] at hh; cases hh
      simp only [other j hj]; exact I.wait j l hh
    · intro j it hh
      simp only [its] at hh; exact I.iter j it hh
  · have other : ∀ j, j ≠ i → (s.st.go i ((s.st.pc i).cont c r)).pc j = s.st.pc j := fun j hj => Function.update_of_ne hj _ _
    have self : (s.st.go i ((s.st.pc i).cont c r)).pc i = (s.st.pc i).cont c r := Function.update_self _ _ _
    have its : ∀ j it, ((s.st.go i ((s.st.pc i).cont c r)).pc j).it? = some it → (s.st.pc j).it? = some it := by
      intro j it hh
      by_cases hj : j = i
      · subst hj; rw [self] at hh
        rcases cont_it (c := c) (s.st.pc j) r with hc | hc
        · rw [hc] at hh; cases hh
        · rwa [hc] at hh
      · rwa [other j hj] at hh
    have old : ∀ j l, Holds ⟨s.st.go i ((s.st.pc i).cont c r), Function.update s.wait i none⟩ j l → Holds s j l ∧ l ≠ n := by
      intro j l hh
      rcases hh with hh | ⟨it, hh, hl⟩
      · by_cases hj : j = i
        · subst hj; simp at hh
        · simp only [Function.update_of_ne hj] at hh
          exact ⟨.inl hh, fun hl => hj (I.one j i n (.inl (hl ▸ hh)) (.inl hw))⟩
      · have hh' := its j it hh
        refine ⟨.inr ⟨it, hh', hl⟩, ?_⟩
        rintro rfl
        have hji := I.one j i _ (.inr ⟨it, hh', rfl⟩) (.inl (hl ▸ hw))
        subst hji
        exact I.apart hw hh' hl
    refine ⟨?_, fun j it hh => I.iter j it (its j it hh), fun j l hh => (I.run j l (old j l hh).1).snoc ?_,
      fun j l q hj hl => I.one j l q (old _ _ hj).1 (old _ _ hl).1⟩
    · intro j l hh
      by_cases hj : j = i
      · subst hj; simp at hh
      · simp only [Function.update_of_ne hj] at hh
        simp only [other j hj]; exact I.wait j l hh
    · intro r' heq
      cases heq
      exact (old j _ hh).2 rfl
  · have other : ∀ j, j ≠ i → (s.st.go i (.done .unit)).pc j = s.st.pc j := fun j hj => Function.update_of_ne hj _ _
    have self : (s.st.go i (.done .unit)).pc i = .done .unit := Function.update_self _ _ _
    have its : ∀ j it, ((s.st.go i (.done .unit)).pc j).it? = some it → j ≠ i ∧ (s.st.pc j).it? = some it := by
      intro j it hh
      by_cases hj : j = i
      · subst hj; rw [self] at hh; cases hh
      · rw [other j hj] at hh; exact ⟨hj, hh⟩
    have hold : Holds s i n := .inr ⟨⟨kind, [], n⟩, by rw [hp]; rfl, rfl⟩
    have old : ∀ j l, Holds ⟨s.st.go i (.done .unit), s.wait⟩ j l → Holds s j l ∧ l ≠ n := by
      intro j l hh
      rcases hh with hh | ⟨it, hh, hl⟩
      · have hj : j ≠ i := by rintro rfl; simp only [hw] at hh; cases hh
        exact ⟨.inl hh, fun hl => hj (I.one j i n (.inl (hl ▸ hh)) hold)⟩
      · obtain ⟨hj, hh⟩ := its j it hh
        have := Holds.mk_it hh hl
        exact ⟨this, fun hl => hj (I.one j i n (hl ▸ this) hold)⟩
    refine ⟨?_, fun j it hh => I.iter j it (its j it hh).2, fun j l hh => (I.run j l (old j l hh).1).snoc ?_,
      fun j l q hj hl => I.one j l q (old _ _ hj).1 (old _ _ hl).1⟩
    · intro j l hh
      have hj : j ≠ i := by rintro rfl; simp only [hw] at hh; cases hh
      simp only [other j hj]; exact I.wait j l hh
    · intro r' heq
      cases heq
      exact (old j _ hh).2 rfl

theorem sys_inv (h : Sys c prog T s m) : SysInv c prog (calls T) s := by
  induction h with
  | init =>
    have no : ∀ i n, ¬ Holds (.init : Client K V) i n := by
      rintro i n (h | ⟨_, h, _⟩) <;> cases h
    exact ⟨fun i n h => (by cases h), fun i it h => (by cases h), fun i n h => (no i n h).elim, fun i j n h => (no i n h).elim⟩
  | loc _ hl ih => rw [calls_loc]; exact ih.loc hl
  | tau _ _ _ _ ih => exact ih
  | sync hs ho hn he hc ih =>
    rw [calls_map]
    have B := RWMap.exec_book hs.map_exec
    refine ih.sync hc ?_ ?_
    · rintro n rfl hi
      obtain ⟨rfl, hp⟩ := event_inv he
      exact (B.inv _).1 hi hp
    · rintro n r rfl hi
      obtain ⟨rfl, hp⟩ := event_inv he
      rw [(B.ret _ _).1 hi] at hp; cases hp

/-! ## What decreases -/

theorem total_mono {is : List Nat} {f g : Nat → Nat} (h : ∀ j ∈ is, f j ≤ g j) : total is f ≤ total is g := by
  induction is with
  | nil => exact Nat.le_refl _
  | cons a is ih =>
    have := ih fun j hj => h j (.tail _ hj)
    have := h a (.head _)
    simp only [total, List.map_cons, List.sum_cons] at *
    omega

theorem total_strict {is : List Nat} {f g : Nat → Nat} (h : ∀ j ∈ is, f j ≤ g j) (hi : i ∈ is) (hl : f i < g i) : total is f < total is g := by
  induction is with
  | nil => cases hi
  | cons a is ih =>
    have h1 := total_mono fun j hj => h j (.tail _ hj)
    have h2 := h a (.head _)
    rcases List.mem_cons.1 hi with rfl | hi
    · simp only [total, List.map_cons, List.sum_cons] at *
      omega
    · have := ih (fun j hj => h j (.tail _ hj)) hi
      simp only [total, List.map_cons, List.sum_cons] at *
      omega

theorem total_lex {is : List Nat} {f f' g g' : Nat → Nat} (hf : ∀ j ∈ is, f' j ≤ f j) (hg : ∀ j ∈ is, f' j = f j → g' j ≤ g j) :
    total is f' < total is f ∨ total is f' = total is f ∧ total is g' ≤ total is g := by
  by_cases h : ∃ j ∈ is, f' j < f j
  · obtain ⟨j, hj, hl⟩ := h
    exact .inl (total_strict hf hj hl)
  · have he : ∀ j ∈ is, f' j = f j := fun j hj => Nat.le_antisymm (hf j hj) (by by_contra hc; exact h ⟨j, hj, by omega⟩)
    exact .inr ⟨RWMap.total_congr he, total_mono fun j hj => hg j hj (he j hj)⟩

theorem total_lex_lt {is : List Nat} {f f' g g' : Nat → Nat} (hf : ∀ j ∈ is, f' j ≤ f j) (hg : ∀ j ∈ is, f' j = f j → g' j ≤ g j) (hi : i ∈ is)
    (h : f' i < f i ∨ f' i = f i ∧ g' i < g i) : total is f' < total is f ∨ total is f' = total is f ∧ total is g' < total is g := by
  rcases total_lex hf hg with h' | ⟨h1, h2⟩
  · exact .inl h'
  · by_cases he : ∀ j ∈ is, f' j = f j
    · refine .inr ⟨h1, total_strict (fun j hj => hg j hj (he j hj)) hi ?_⟩
      rcases h with h | h
      · have := he i hi; omega
      · exact h.2
    · have : ∃ j ∈ is, f' j < f j := by
        by_contra hc
        exact he fun j hj => Nat.le_antisymm (hf j hj) (by by_contra hx; exact hc ⟨j, hj, by omega⟩)
      obtain ⟨j, hj, hl⟩ := this
      exact .inl (total_strict hf hj hl)

theorem total_one {is : List Nat} (hd : is.Nodup) (hi : i ∈ is) {f g : Nat → Nat} (ho : ∀ j, j ≠ i → f j = g j) :
    total is f + g i = total is g + f i := by
  induction is with
  | nil => cases hi
  | cons a is ih =>
    simp only [total, List.map_cons, List.sum_cons] at *
    rw [List.nodup_cons] at hd
    rcases List.mem_cons.1 hi with rfl | hi
    · have : is.map f = is.map g := List.map_congr_left fun j hj => ho j (by rintro rfl; exact hd.1 hj)
      rw [this]; omega
    · have := ih hd.2 hi
      have := ho a (by rintro rfl; exact hd.1 hi)
      omega

/-- How often a thread may still call the map to put an entry into it. -/
def pendP (w : Option Nat) (pc : PC K V) : Nat :=
  match w, pc with
  | some _, .stPut _ _ | some _, .losTry _ _ _ _ => 0
  | _, pc => puts pc

/-- Whether the list of entries for a loop is still to be taken. -/
def lstP (m : RWMap.State K Nat) (pc : PC K V) : Nat :=
  match pc.it? with
  | some it => if mlisted (m.pc it.start) then 0 else 1
  | none => 2 * fresh pc

/-- How many entries there are left in the loop. -/
def loopP (m : RWMap.State K Nat) (pc : PC K V) : Nat :=
  match pc.it? with
  | some it => mleft (m.pc it.start)
  | none => 0

/-- Steps to come, but for the retries of `LoadOrStore`. -/
def wrkP (m : RWMap.State K Nat) (w : Option Nat) (pc : PC K V) : Nat := 2 * (work pc + 20 * loopP m pc) + if w = none then 1 else 0

theorem fresh_it {pc : PC K V} {it : Iter K} (h : pc.it? = some it) : fresh pc = 0 := by
  cases pc <;> first | rfl | cases h

theorem lst_le {p q : PC K V} (hit : q.it? = none ∨ q.it? = p.it?) (hf : fresh q ≤ fresh p) : lstP m q ≤ lstP m p := by
  unfold lstP
  cases hp : p.it? with
  | none =>
    have hq : q.it? = none := by rcases hit with h | h <;> simp [h, hp]
    simp only [hq]; omega
  | some it =>
    have := fresh_it hp
    rcases hit with h | h
    · simp only [h]; omega
    · simp only [h, hp, Nat.le_refl]

theorem lst_lt {p q : PC K V} (hit : q.it? = none ∨ q.it? = p.it?) (hf : fresh q < fresh p) : lstP m q < lstP m p := by
  unfold lstP
  cases hp : p.it? with
  | none =>
    have hq : q.it? = none := by rcases hit with h | h <;> simp [h, hp]
    simp only [hq]; omega
  | some it => have := fresh_it hp; omega

theorem wrk_lt {p q : PC K V} {w : Option Nat} (hit : q.it? = none ∨ q.it? = p.it?) (hw : work q < work p) : wrkP m none q < wrkP m w p := by
  have : loopP m q ≤ loopP m p := by
    unfold loopP
    rcases hit with h | h
    · simp only [h]; omega
    · simp only [h, Nat.le_refl]
  simp only [wrkP, if_true]
  omega

theorem lst_next {pc : PC K V} (hn : RWMap.next ptrEq prog ord true m n = some m') : lstP m' pc ≤ lstP m pc := by
  unfold lstP
  cases hp : pc.it? with
  | none => simp
  | some it =>
    cases hl : mlisted (m.pc it.start) with
    | true => simp [(mlisted_next hn _ hl).1]
    | false => cases hl' : mlisted (m'.pc it.start) <;> simp [hl, hl']

theorem wrk_next {pc : PC K V} {w : Option Nat} (hn : RWMap.next ptrEq prog ord true m n = some m') (h : lstP m' pc = lstP m pc)
    (hz : ∀ it, pc.it? = some it → mlisted (m'.pc it.start) = false → mleft (m'.pc it.start) = 0) : wrkP m' w pc ≤ wrkP m w pc := by
  have : loopP m' pc ≤ loopP m pc := by
    unfold lstP at h
    unfold loopP
    cases hp : pc.it? with
    | none => simp
    | some it =>
      simp only [hp] at h ⊢
      cases hl : mlisted (m.pc it.start) with
      | true => exact (mlisted_next hn _ hl).2
      | false =>
        cases hl' : mlisted (m'.pc it.start) with
        | true => simp [hl, hl'] at h
        | false => rw [hz it hp hl']; omega
  unfold wrkP
  omega

theorem mleft_zero (pc : RWMap.PC K Nat) (h : mlisted pc = false) : mleft pc = 0 := by
  cases pc <;> first | rfl | cases h

theorem loc_m {hist : List (Map K)} {s s' : State K V} {e : Ev K V} (h : Step c hist s i s' e) (hop : (s.pc i).mapOp c = none) :
    s'.m = s.m := by
  cases h <;> first | rfl | (rename_i hpc; simp [hpc, PC.mapOp] at hop; done) |
    (rename_i hpc _; simp [hpc, PC.mapOp] at hop; done) | (rename_i hpc hx; simp [hpc, hx, PC.mapOp] at hop)

/-- A step of the cache's own. -/
theorem loc_down {inp : In K V} {e : Ev K V} (h : s.loc c i inp = some (s', e)) (hi : s.st.pc i ≠ .idle) :
    pendP (s'.wait i) (s'.st.pc i) < pendP (s.wait i) (s.st.pc i) ∨
    (pendP (s'.wait i) (s'.st.pc i) ≤ pendP (s.wait i) (s.st.pc i) ∧ lstP m (s'.st.pc i) ≤ lstP m (s.st.pc i) ∧
      (lstP m (s'.st.pc i) < lstP m (s.st.pc i) ∨ wrkP m (s'.wait i) (s'.st.pc i) < wrkP m (s.wait i) (s.st.pc i))) := by
  obtain ⟨h1, h2, h3, h4, h5, h6, h7⟩ := loc_cases h
  have hst := step_Step h4
  have hm := loc_m hst h2
  rw [h5, h1]
  have hp : ∀ pc : PC K V, pendP none pc = puts pc := fun pc => by cases pc <;> rfl
  rw [hp, hp]
  rcases hst.down hi with h | ⟨_, h⟩ | ⟨ha, _, hf⟩ | ⟨ha, _, hf, hw⟩
  · exact .inl h
  · rw [hm] at h; exact absurd h (Nat.lt_irrefl _)
  · exact .inr ⟨ha, Nat.le_of_lt (lst_lt h7 hf), .inl (lst_lt h7 hf)⟩
  · exact .inr ⟨ha, lst_le h7 hf, .inr (wrk_lt h7 hw)⟩

/-- A call of the map has returned. -/
theorem ret_down {pc : PC K V} {r : RWMap.Res K Nat} (w : Nat) (ho : pc.mapOp c = some (prog n)) (hs : ∀ kind, pc ≠ .iStart kind)
    {A : RWMap.AMap K Nat} (hr : r = RWMap.resultOn ptrEq prog n A) :
    (isCad prog (n, r) = true ∧ isFound prog (n, r) = false ∧ pendP none (pc.cont c r) ≤ pendP (some w) pc) ∨
    (isCad prog (n, r) = false ∧ pendP none (pc.cont c r) ≤ pendP (some w) pc + (if isFound prog (n, r) then 1 else 0) ∧
      fresh (pc.cont c r) ≤ fresh pc ∧ work (pc.cont c r) < work pc) := by
  have hp : ∀ pc : PC K V, pendP none pc = puts pc := fun pc => by cases pc <;> rfl
  have after : ∀ (a : Nat) (aft : After K V), puts (afterDel c a aft) ≤ puts (.cbCall a aft) := by
    intro a aft
    unfold afterDel
    split
    · exact Nat.le_refl _
    · rcases aft with _ | _ | _ | _ | _ | _ | _ | _ | _ <;> simp [After.next, puts]
  rw [hp]
  cases pc <;> simp only [PC.mapOp, reduceCtorEq, Option.some.injEq] at ho
  case stPut k a =>
    refine .inr ?_
    simp [isCad, isFound, ← ho, PC.cont, puts, fresh, work, pendP]
  case ldGet k x =>
    rw [RWMap.resultOn, ← ho] at hr
    simp only [RWMap.apply] at hr
    subst hr
    refine .inr ?_
    cases A k <;> cases x <;> simp [isCad, isFound, ← ho, PC.cont, puts, fresh, work, pendP]
  case losTry k v d a =>
    rw [RWMap.resultOn, ← ho] at hr
    simp only [RWMap.apply] at hr
    refine .inr ?_
    cases hA : A k <;> rw [hA] at hr <;> subst hr <;> simp [isCad, isFound, ← ho, PC.cont, puts, fresh, work, pendP]
  case delTry k =>
    rw [RWMap.resultOn, ← ho] at hr
    simp only [RWMap.apply] at hr
    subst hr
    refine .inr ?_
    cases A k <;> cases hc : c.hasCb <;> simp [isCad, isFound, ← ho, PC.cont, afterDel, hc, After.next, puts, fresh, work, pendP]
  case ladTry k =>
    rw [RWMap.resultOn, ← ho] at hr
    simp only [RWMap.apply] at hr
    subst hr
    refine .inr ?_
    cases A k <;> simp [isCad, isFound, ← ho, PC.cont, puts, fresh, work, pendP]
  case cad k a aft =>
    rw [RWMap.resultOn, ← ho] at hr
    have hb : r = .bool true ∨ r = .bool false := by
      simp only [RWMap.apply, ptrEq] at hr
      cases hA : A k with
      | none => rw [hA] at hr; exact .inr hr
      | some b =>
        rw [hA] at hr
        simp only at hr
        cases hab : (b == a) <;> rw [hab] at hr <;> simp [hr]
    rcases hb with rfl | rfl
    · refine .inl ⟨by simp [isCad, ← ho], by simp [isFound, ← ho], ?_⟩
      refine Nat.le_trans (after a aft) ?_
      rcases aft with _ | _ | _ | _ | _ | _ | _ | _ | _ <;> simp [puts, pendP]
    · refine .inr ⟨by simp [isCad, ← ho], ?_⟩
      rcases aft with _ | _ | _ | _ | _ | _ | _ | _ | _ <;> simp [isFound, ← ho, PC.cont, After.next, puts, fresh, work, pendP]
  case clr =>
    cases hc : c.hasCb <;> simp only [hc, if_true, if_false, reduceCtorEq, Option.some.injEq, Bool.false_eq_true] at ho
    refine .inr ?_
    cases r <;> simp [isCad, isFound, ← ho, PC.cont, puts, fresh, work, pendP]
  case iStart kind => exact absurd rfl (hs kind)


theorem putters_inv (prog : Nat → RWMap.Op K Nat) (n : Nat) : (putters prog [.inv n]).length = match prog n with
    | .swap _ _ | .loadOrStore _ _ | .compareAndSwap _ _ _ => 1
    | _ => 0 := by
  cases h : prog n <;> simp [putters, h]

/-- How many removals there can still be. -/
def debt (prog : Nat → RWMap.Op K Nat) (is : List Nat) (h : List (RWMap.Ev K Nat)) (s : Client K V) : Nat :=
  (putters prog h).length + total is (fun i => pendP (s.wait i) (s.st.pc i)) -
    (((rets h).filter (isFound prog)).length + ((rets h).filter (isCad prog)).length)

def meas (prog : Nat → RWMap.Op K Nat) (is : List Nat) (x : List (Item K V) × Client K V × RWMap.State K Nat) : Nat ×ₗ (Nat ×ₗ Nat) :=
  toLex (debt prog is (calls x.1) x.2.1,
    toLex (total is (fun i => lstP x.2.2 (x.2.1.st.pc i)), total is fun i => wrkP x.2.2 (x.2.1.wait i) (x.2.1.st.pc i)))

/-- Every step brings the end nearer, or is one of the map only. -/
theorem SysGoes.down {is : List Nat} {x x' : List (Item K V) × Client K V × RWMap.State K Nat} (hs : Sys c prog x.1 x.2.1 x.2.2)
    (his : ∀ i, i ∉ is → x.2.1.st.pc i = .idle) (hd : is.Nodup) (hg : SysGoes c prog x x') :
    (meas prog is x' < meas prog is x ∨ meas prog is x' = meas prog is x ∧ RWMap.Goes ptrEq prog x.2.2 x'.2.2) ∧
    ∀ i, i ∉ is → x'.2.1.st.pc i = .idle := by
  have hs' := hg.sys hs
  have b := balance (h := calls x.1) hs.map_exec
  have b' := balance (h := calls x'.1) hs'.map_exec
  have mem : ∀ i, x.2.1.st.pc i ≠ .idle → i ∈ is := fun i hi => by by_contra hc; exact hi (his i hc)
  have I := sys_inv hs
  cases hg with
  | @loc T s m i inp s' e hi hl =>
    obtain ⟨h1, h2, h3, h4, h5, h6, h7⟩ := loc_cases hl
    have hm : i ∈ is := mem i hi
    refine ⟨.inl ?_, fun j hj => ?_⟩
    · dsimp only at b b'
      rw [calls_loc] at b'
      have hw : ∀ j, s'.wait j = s.wait j := fun j => by rw [h5]
      simp only [meas, calls_loc, Prod.Lex.toLex_lt_toLex]
      rcases loc_down (m := m) hl hi with h | ⟨ha, hb, hc⟩
      · refine .inl ?_
        have := RWMap.total_lt (f := fun j => pendP (s'.wait j) (s'.st.pc j)) (g := fun j => pendP (s.wait j) (s.st.pc j)) hd hm
          (fun j hj => by simp only [hw, h6 j hj]) h
        simp only [debt]
        omega
      · have hp := total_mono (is := is) (f := fun j => pendP (s'.wait j) (s'.st.pc j)) (g := fun j => pendP (s.wait j) (s.st.pc j))
          (fun j _ => by by_cases hj : j = i; exacts [hj ▸ ha, by simp only [hw, h6 j hj, Nat.le_refl]])
        have hle : debt prog is (calls T) s' ≤ debt prog is (calls T) s := by simp only [debt]; omega
        have hlex := total_lex_lt (is := is) (i := i) (f := fun j => lstP m (s.st.pc j)) (f' := fun j => lstP m (s'.st.pc j))
          (g := fun j => wrkP m (s.wait j) (s.st.pc j)) (g' := fun j => wrkP m (s'.wait j) (s'.st.pc j))
          (fun j _ => by by_cases hj : j = i; exacts [hj ▸ hb, by simp only [h6 j hj, Nat.le_refl]])
          (fun j _ he => by
            by_cases hj : j = i
            · subst hj
              rcases hc with hc | hc
              · exact absurd he (Nat.ne_of_lt hc)
              · exact Nat.le_of_lt hc
            · simp only [hw, h6 j hj, Nat.le_refl]) hm
          (by rcases Nat.lt_or_eq_of_le hb with h | h
              · exact .inl h
              · exact .inr ⟨h, by rcases hc with hc | hc; exacts [by omega, hc]⟩)
        rcases Nat.lt_or_eq_of_le hle with h | h
        · exact .inl h
        · refine .inr ⟨h, ?_⟩
          rcases hlex with h | ⟨h, h'⟩
          · exact .inl h
          · exact .inr ⟨h, h'⟩
    · have : j ≠ i := by rintro rfl; exact hj hm
      simp only [h6 j this]; exact his j hj
  | @tau T s m n ord m' ho hn he =>
    refine ⟨?_, his⟩
    have hgo : RWMap.Goes ptrEq prog m m' := ⟨n, ord, true, fun hi => by simp [RWMap.event, hi] at he, ho, hn⟩
    have hlex := total_lex (is := is) (f := fun j => lstP m (s.st.pc j)) (f' := fun j => lstP m' (s.st.pc j))
          (g := fun j => wrkP m (s.wait j) (s.st.pc j)) (g' := fun j => wrkP m' (s.wait j) (s.st.pc j))
          (fun j _ => lst_next hn) (fun j _ he => wrk_next hn he fun it _ => mleft_zero _)
    simp only [meas, Prod.Lex.toLex_lt_toLex]
    rcases hlex with h | ⟨h, h'⟩
    · exact .inl (.inr ⟨trivial, .inl h⟩)
    · rcases Nat.lt_or_eq_of_le h' with h' | h'
      · exact .inl (.inr ⟨trivial, .inr ⟨h, h'⟩⟩)
      · exact .inr ⟨by rw [h, h'], hgo⟩
  | @sync T s m n ord m' e i s' ho hn he hc =>
    have key : ∀ (hi : s.st.pc i ≠ .idle) (ho : ∀ j, j ≠ i → s'.st.pc j = s.st.pc j ∧ s'.wait j = s.wait j)
        (hpd : (putters prog (calls T ++ [e])).length + pendP (s'.wait i) (s'.st.pc i) +
            (((rets (calls T)).filter (isFound prog)).length + ((rets (calls T)).filter (isCad prog)).length) <
          (putters prog (calls T)).length + pendP (s.wait i) (s.st.pc i) +
            (((rets (calls T ++ [e])).filter (isFound prog)).length + ((rets (calls T ++ [e])).filter (isCad prog)).length) ∨
          ((putters prog (calls T ++ [e])).length + pendP (s'.wait i) (s'.st.pc i) +
            (((rets (calls T)).filter (isFound prog)).length + ((rets (calls T)).filter (isCad prog)).length) ≤
          (putters prog (calls T)).length + pendP (s.wait i) (s.st.pc i) +
            (((rets (calls T ++ [e])).filter (isFound prog)).length + ((rets (calls T ++ [e])).filter (isCad prog)).length) ∧
          lstP m' (s'.st.pc i) ≤ lstP m (s.st.pc i) ∧
            (lstP m' (s'.st.pc i) = lstP m (s.st.pc i) → wrkP m' (s'.wait i) (s'.st.pc i) < wrkP m (s.wait i) (s.st.pc i)))),
        (meas prog is (T ++ [.map e], s', m') < meas prog is (T, s, m) ∨ meas prog is (T ++ [.map e], s', m') = meas prog is (T, s, m) ∧
          RWMap.Goes ptrEq prog m m') ∧ ∀ i, i ∉ is → s'.st.pc i = .idle := by
      intro hi ho hpd
      have hm : i ∈ is := mem i hi
      refine ⟨.inl ?_, fun j hj => ?_⟩
      · simp only [meas, calls_map, Prod.Lex.toLex_lt_toLex]
        dsimp only at b b'
        rw [calls_map] at b'
        have hsum : total is (fun j => pendP (s'.wait j) (s'.st.pc j)) + pendP (s.wait i) (s.st.pc i) =
            total is (fun j => pendP (s.wait j) (s.st.pc j)) + pendP (s'.wait i) (s'.st.pc i) :=
          total_one (f := fun j => pendP (s'.wait j) (s'.st.pc j)) (g := fun j => pendP (s.wait j) (s.st.pc j)) hd hm
            fun j hj => by simp only [(ho j hj).1, (ho j hj).2]
        rcases hpd with h | ⟨ha, hb, hc⟩
        · refine .inl ?_
          simp only [debt]
          omega
        · have hle : debt prog is (calls T ++ [e]) s' ≤ debt prog is (calls T) s := by simp only [debt]; omega
          have hlex := total_lex_lt (is := is) (i := i) (f := fun j => lstP m (s.st.pc j)) (f' := fun j => lstP m' (s'.st.pc j))
            (g := fun j => wrkP m (s.wait j) (s.st.pc j)) (g' := fun j => wrkP m' (s'.wait j) (s'.st.pc j))
            (fun j _ => by by_cases hj : j = i; exacts [hj ▸ hb, by simp only [(ho j hj).1]; exact lst_next hn])
            (fun j _ he => by
              by_cases hj : j = i
              · subst hj; exact Nat.le_of_lt (hc he)
              · simp only [(ho j hj).1, (ho j hj).2] at he ⊢
                exact wrk_next hn he fun it _ => mleft_zero _) hm
            (by rcases Nat.lt_or_eq_of_le hb with h | h
                · exact .inl h
                · exact .inr ⟨h, hc h⟩)
          rcases Nat.lt_or_eq_of_le hle with h | h
          · exact .inl h
          · refine .inr ⟨h, ?_⟩
            rcases hlex with h | ⟨h, h'⟩
            · exact .inl h
            · exact .inr ⟨h, h'⟩
      · have : j ≠ i := by rintro rfl; exact hj hm
        simp only [(ho j this).1]; exact his j hj
    rcases sync_cases hc with ⟨l, kind, rfl, hw, hop, hp, rfl⟩ | ⟨l, rfl, hw, hop, hp, rfl⟩ | ⟨l, k, a, kind, rfl, hw, hp, rfl⟩ | ⟨l, r, rfl, hw, rfl⟩ |
      ⟨l, kind, acc, rfl, hw, hp, rfl⟩
    · have hpr : prog l = .range := by rw [hp] at hop; simpa [PC.mapOp] using hop.symm
      refine key (by rw [hp]; simp) (fun j hj => ⟨Function.update_of_ne hj _ _, rfl⟩) (.inr ?_)
      simp only [State.go_pc, rets_append, putters_append, List.filter_append, List.length_append, putters_inv, hpr, rets, List.filter_nil, List.length_nil, hw, hp]
      have : lstP m' (.iter ⟨kind, [], l⟩ : PC K V) ≤ 1 := by simp only [lstP, PC.it?]; split <;> omega
      have h2 : lstP m (.iStart kind : PC K V) = 2 := rfl
      refine ⟨by simp [pendP, puts], by omega, fun h => by omega⟩
    · have hne : s.st.pc i ≠ .idle := by intro h; rw [h] at hop; cases hop
      refine key hne (fun j hj => ⟨rfl, Function.update_of_ne hj _ _⟩) (.inr ?_)
      simp only [rets_append, putters_append, List.filter_append, List.length_append, putters_inv, rets, List.filter_nil, List.length_nil, hw, Function.update_self]
      refine ⟨?_, lst_next hn, fun h => ?_⟩
      · cases hpc : s.st.pc i <;> rw [hpc] at hop <;> simp only [PC.mapOp, reduceCtorEq, Option.some.injEq] at hop
        case clr => split at hop <;> simp only [reduceCtorEq, Option.some.injEq] at hop; simp [← hop, pendP, puts]
        all_goals simp [← hop, pendP, puts]
      · have := wrk_next (w := some l) hn h fun it _ => mleft_zero _
        have h2 : wrkP m none (s.st.pc i) = wrkP m (some l) (s.st.pc i) + 1 := by simp [wrkP]
        omega
    · obtain ⟨rfl, h1, h2, h3⟩ := mleft_visit hn he
      refine key (by rw [hp]; simp) (fun j hj => ⟨Function.update_of_ne hj _ _, rfl⟩) (.inr ?_)
      simp only [State.go_pc, rets_append, putters_append, List.filter_append, List.length_append, putters, rets, List.filter_nil, List.length_nil, hw, hp]
      refine ⟨?_, ?_, fun _ => ?_⟩
      · cases kind <;> simp [Iter.visit, pendP, puts]
      · have : lstP m' (Iter.visit ⟨kind, [], l⟩ k a : PC K V) = 0 := by simp [lstP, visit_it, h2]
        rw [this]; exact Nat.zero_le _
      · have : work (Iter.visit ⟨kind, [], l⟩ k a : PC K V) ≤ 8 := by cases kind <;> simp [Iter.visit, work]
        have e1 : wrkP m' none (Iter.visit ⟨kind, [], l⟩ k a : PC K V) = 2 * (work (Iter.visit ⟨kind, [], l⟩ k a : PC K V) + 20 * mleft (m'.pc l)) + 1 := by
          simp only [wrkP, loopP, visit_it, if_true]
        have e2 : 2 * (20 * mleft (m.pc l)) + 1 ≤ wrkP m none (.iter ⟨kind, [], l⟩ : PC K V) := by
          simp only [wrkP, loopP, PC.it?, if_true]; omega
        omega
    · obtain ⟨rfl, hf⟩ := event_ret he
      obtain ⟨hop, hks⟩ := I.wait i _ hw
      dsimp only at hop hks
      have hne : s.st.pc i ≠ .idle := by intro h; rw [h] at hop; cases hop
      obtain ⟨-, A, hA⟩ := ret_result (r := r) hs'.map_exec (mapOp_isMap hop hks) (by simp [List.filterMap_append, Item.map?])
      refine key hne (fun j hj => ⟨Function.update_of_ne hj _ _, Function.update_of_ne hj _ _⟩) ?_
      simp only [State.go_pc, rets_append, putters_append, List.filter_append, List.length_append, putters, rets, List.length_nil, hw, Function.update_self]
      rcases ret_down l hop hks hA with ⟨h1, h2, h3⟩ | ⟨h1, h2, h3, h4⟩
      · refine .inl ?_
        simp only [List.filter_cons, h1, h2, List.filter_nil, if_true, List.length_cons, List.length_nil, Bool.false_eq_true, if_false]
        omega
      · refine .inr ⟨?_, ?_, fun heq => ?_⟩
        · simp only [List.filter_cons, h1, List.filter_nil, Bool.false_eq_true, if_false]
          cases hfd : isFound prog (l, r) <;> simp only [hfd, Bool.false_eq_true, if_true, if_false, List.length_cons, List.length_nil] at h2 ⊢ <;> omega
        · exact Nat.le_trans (lst_next hn) (lst_le (cont_it _ _) h3)
        · rcases cont_it (c := c) (s.st.pc i) r with hit | hit
          · have : wrkP m' none ((s.st.pc i).cont c r) = 2 * work ((s.st.pc i).cont c r) + 1 := by simp [wrkP, loopP, hit]
            have h5 : 2 * work (s.st.pc i) ≤ wrkP m (some l) (s.st.pc i) := by unfold wrkP; omega
            omega
          · refine Nat.lt_of_lt_of_le (wrk_lt (w := some l) (.inr hit) h4) (wrk_next hn (Nat.le_antisymm (lst_next hn) ?_) fun it _ => mleft_zero _)
            rw [← heq]
            exact lst_le (.inr hit) h3
    · obtain ⟨rfl, hf⟩ := event_ret he
      refine key (by rw [hp]; simp) (fun j hj => ⟨Function.update_of_ne hj _ _, rfl⟩) (.inr ?_)
      have hpr : prog l = .range := (I.iter i ⟨kind, [], l⟩ (by simp only [hp]; rfl)).2
      simp only [State.go_pc, rets_append, putters_append, List.filter_append, List.length_append, putters, rets, List.length_nil, hw, hp]
      refine ⟨by simp [isFound, isCad, hpr, pendP, puts], by simp [lstP, PC.it?, fresh], fun _ => ?_⟩
      simp only [wrkP, loopP, PC.it?, work]
      simp
      omega


theorem sysGoes_acc {is : List Nat} (hd : is.Nodup) : ∀ x : List (Item K V) × Client K V × RWMap.State K Nat, Sys c prog x.1 x.2.1 x.2.2 →
    (∀ i, i ∉ is → x.2.1.st.pc i = .idle) → _root_.Acc (fun x' x => SysGoes c prog x x') x := by
  have wf : WellFounded (fun a b : Nat ×ₗ (Nat ×ₗ Nat) => a < b) := wellFounded_lt
  intro x
  induction hr : meas prog is x using wf.induction generalizing x with
  | _ r ih =>
    intro hs his
    obtain ⟨ns, hns⟩ := RWMap.exec_finite hs.map_exec
    have acc := RWMap.goes_wf (eqv := ptrEq) (prog := prog) (List.nodup_dedup ns) x.2.2 (fun i hi => hns i (by simpa using hi))
    obtain ⟨T, s, m⟩ := x
    dsimp only at acc
    clear hns ns
    induction acc generalizing T s with
    | intro m _ ih' =>
      constructor
      intro x' hg
      obtain ⟨h1, h2⟩ := hg.down hs his hd
      rcases h1 with h1 | ⟨h1, h3⟩
      · exact ih _ (hr ▸ h1) x' rfl (hg.sys hs) h2
      · obtain ⟨T', s', m'⟩ := x'
        exact ih' m' h3 T' s' (h1.trans hr) (hg.sys hs) h2

/-- Only finitely many threads are in calls. -/
theorem Sys.finite (h : Sys c prog T s m) : ∃ is : List Nat, ∀ i, i ∉ is → s.st.pc i = .idle := by
  induction h with
  | init => exact ⟨[], fun _ _ => rfl⟩
  | @loc T s m i inp s' e _ hl ih =>
    obtain ⟨is, his⟩ := ih
    refine ⟨i :: is, fun j hj => ?_⟩
    rw [List.mem_cons, not_or] at hj
    rw [(loc_cases hl).2.2.2.2.2.1 j hj.1]
    exact his j hj.2
  | tau _ _ _ _ ih => exact ih
  | @sync T s m n ord m' e i s' _ _ _ _ hc ih =>
    obtain ⟨is, his⟩ := ih
    refine ⟨i :: is, fun j hj => ?_⟩
    rw [List.mem_cons, not_or] at hj
    have : s'.st.pc j = s.st.pc j := by
      rcases sync_cases hc with ⟨l, kind, rfl, hw, hop, hp, rfl⟩ | ⟨l, rfl, hw, hop, hp, rfl⟩ | ⟨l, k, a, kind, rfl, hw, hp, rfl⟩ | ⟨l, r, rfl, hw, rfl⟩ |
        ⟨l, kind, acc, rfl, hw, hp, rfl⟩ <;> first | rfl | exact Function.update_of_ne hj.1 _ _
    rw [this]
    exact his j hj.2

/-- **C154**: without new calls of the cache there is no end of progress: in whatever order the calls in progress, and their calls of the map, are given
their turns, there are only finitely many steps. -/
theorem sys_finite (h : Sys c prog T s m) (f : Nat → List (Item K V) × Client K V × RWMap.State K Nat) (h0 : f 0 = (T, s, m)) :
    ¬ ∀ n, SysGoes c prog (f n) (f (n + 1)) := by
  intro hf
  obtain ⟨is, his⟩ := h.finite
  have acc := sysGoes_acc (c := c) (prog := prog) (List.nodup_dedup is) (T, s, m) h (fun i hi => his i (by simpa using hi))
  have : ∀ x, _root_.Acc (fun x' x => SysGoes c prog x x') x → ∀ n, f n = x → False := by
    intro x acc
    induction acc with
    | intro x _ ih =>
      rintro n rfl
      exact ih _ (hf n) (n + 1) rfl
  exact this _ acc 0 h0

/-- **C154**: so all calls return, whatever the scheduler does, if no new ones are made. -/
theorem sys_all_return (h : Sys c prog T s m) (f : Nat → List (Item K V) × Client K V × RWMap.State K Nat) (h0 : f 0 = (T, s, m))
    (hf : ∀ n, ¬ AllBack (f n).2.1.st → SysGoes c prog (f n) (f (n + 1))) : ∃ n, AllBack (f n).2.1.st := by
  by_contra hc
  exact sys_finite h f h0 fun n => hf n fun hq => hc ⟨n, hq⟩

/-! ## As long as calls are in progress, there is a step -/

/-- Where a `Range` of the map can be whose function always returns true. -/
def RangePc : RWMap.PC K Nat → Prop
  | .idle | .start | .acq | .crit | .promo (.rng _) | .unl (.rng _) | .rng _ _ | .fin (.visited _ false) | .done _ => True
  | _ => False

theorem range_pc (h : Sys c prog T s m) (hp : prog n = .range) : RangePc (m.pc n) := by
  have step : ∀ {m m' : RWMap.State K Nat} {l : Nat} {ord : List (K × Nat) → List (K × Nat)}, RWMap.next ptrEq prog ord true m l = some m' →
      RangePc (m.pc n) → RangePc (m'.pc n) := by
    intro m m' l ord hn hr
    by_cases hl : n = l
    · subst hl
      cases hpc : m.pc n <;> rw [hpc] at hr
      case idle => simp only [RWMap.next, hpc, Option.some.injEq] at hn; subst hn; simp [RWMap.State.goto, RangePc]
      case start =>
        simp only [RWMap.next, hpc, hp, RWMap.startStep, Option.some.injEq] at hn
        subst hn
        simp only [RWMap.State.goto, if_true]
        split <;> trivial
      case acq =>
        simp only [RWMap.next, hpc] at hn
        split at hn <;> simp only [Option.some.injEq, reduceCtorEq] at hn
        subst hn; simp [RWMap.State.goto, RangePc]
      case crit =>
        simp only [RWMap.next, hpc, hp, RWMap.critStep, Option.some.injEq] at hn
        subst hn
        simp only [RWMap.State.goto, if_true]
        split <;> trivial
      case promo nx =>
        cases nx with
        | rng l => simp only [RWMap.next, hpc, Option.some.injEq] at hn; subst hn; simp [RWMap.State.goto, RangePc]
        | _ => exact hr.elim
      case unl nx =>
        cases nx with
        | rng l => simp only [RWMap.next, hpc, Option.some.injEq] at hn; subst hn; simp [RWMap.State.goto, RangePc]
        | _ => exact hr.elim
      case rng es acc =>
        cases es with
        | nil => simp only [RWMap.next, hpc, Option.some.injEq] at hn; subst hn; simp [RWMap.State.goto, RangePc]
        | cons x es =>
          obtain ⟨k, e⟩ := x
          simp only [RWMap.next, hpc] at hn
          split at hn <;> simp only [if_true, Option.some.injEq] at hn <;> subst hn <;> simp [RWMap.State.goto, RangePc]
      case fin r => simp only [RWMap.next, hpc, Option.some.injEq] at hn; subst hn; simp [RWMap.State.goto, RangePc]
      case done r => simp [RWMap.next, hpc] at hn
      all_goals exact hr.elim
    · rw [RWMap.next_other hn hl]; exact hr
  induction h with
  | init => trivial
  | loc _ _ ih => exact ih
  | tau _ _ hn _ ih => exact step hn ih
  | sync _ _ hn _ _ ih => exact step hn ih

/-- The call of the map that a thread is in can go on, or waits for the mutex, whose holder can. -/
theorem map_goes (h : Sys c prog T s m) (hr : Running (calls T) n) (hev : ∀ m' e, RWMap.next ptrEq prog id true m n = some m' →
    RWMap.event prog m n = [e] → ∃ i s', s.sync c prog i e = some s') : ∃ x', SysGoes c prog (T, s, m) x' := by
  have hx := h.map_exec
  have B := RWMap.exec_book hx
  have hi : m.pc n ≠ .idle := (B.inv n).1 hr.1
  have hd : ∀ r, m.pc n ≠ .done r := fun r hp => hr.2 r ((B.ret n r).2 hp)
  have fire : ∀ {l m'}, RWMap.next ptrEq prog id true m l = some m' → RWMap.event prog m l = [] → ∃ x', SysGoes c prog (T, s, m) x' :=
    fun hn he => ⟨_, .tau (fun l => .refl l) hn he⟩
  by_cases ha : m.pc n = .acq
  · cases hmu : m.sh.mu with
    | none =>
      have : RWMap.next ptrEq prog id true m n = some ({ m with sh := { m.sh with mu := some n } }.goto n .crit) := by
        simp [RWMap.next, ha, hmu]
      exact fire this (by simp [RWMap.event, ha])
    | some l =>
      have hl : (m.pc l).locked = true := (RWMap.lock_invariant hx l).2 hmu
      obtain ⟨m', -, hn⟩ := RWMap.rwmap_waits hx (i := l) (by rintro h; rw [h] at hl; cases hl) (by rintro r h; rw [h] at hl; cases hl)
        (by rintro h; rw [h] at hl; cases hl)
      exact fire hn (by cases hpl : m.pc l <;> rw [hpl] at hl <;> first | cases hl; done | simp [RWMap.event, hpl])
  · obtain ⟨m', -, hn⟩ := RWMap.rwmap_waits hx hi hd ha
    cases he : RWMap.event prog m n with
    | nil => exact fire hn he
    | cons e es =>
      have hes : es = [] := by
        cases hp : m.pc n with
        | rng l acc =>
          simp only [RWMap.event, hp] at he
          cases l with
          | nil => cases he
          | cons x l => obtain ⟨k, e⟩ := x; simp only at he; split at he <;> cases he; rfl
        | _ => simp [RWMap.event, hp] at he <;> simp_all
      subst hes
      obtain ⟨i, s', hs⟩ := hev m' e hn he
      exact ⟨_, .sync (fun l => .refl l) hn he hs⟩

/-- A step of the cache's own is always possible. -/
theorem loc_goes (hi : s.st.pc i ≠ .idle) (hw : s.wait i = none) (ho : (s.st.pc i).mapOp c = none) (hit : (s.st.pc i).isIter = false) :
    ∃ inp s' e, s.loc c i inp = some (s', e) := by
  suffices h : ∃ inp s' e, step c [] s.st i inp = some (s', e) by
    obtain ⟨inp, s', e, h⟩ := h
    exact ⟨inp, ⟨s', s.wait⟩, e, by simp [Client.loc, hw, ho, hit, h]⟩
  cases hpc : s.st.pc i <;> rw [hpc] at ho hit <;> simp only [PC.mapOp, PC.isIter, reduceCtorEq] at ho hit
  case idle => exact absurd hpc hi
  case cbRun => exact ⟨.cbFin true, by simp only [step, hpc]; exact ⟨_, _, rfl⟩⟩
  case fRun => exact ⟨.fFin (some true), by simp only [step, hpc]; exact ⟨_, _, rfl⟩⟩
  all_goals first
    | exact ⟨.go, by simp only [step, hpc]; exact ⟨_, _, rfl⟩⟩
    | exact ⟨.go, by simp only [step, hpc]; split <;> exact ⟨_, _, rfl⟩⟩
    | exact ⟨.time 0, by simp only [step, hpc]; exact ⟨_, _, rfl⟩⟩

/-- **C154**: as long as a call is in progress, some step can be made, of the cache's own or of the map; where a call of the map comes next, a call of the map
has to be left in the list `prog` of those that are made. -/
theorem sys_goes (h : Sys c prog T s m) (hi : s.st.pc i ≠ .idle)
    (hm : ∀ op, s.wait i = none → (s.st.pc i).mapOp c = some op → ∃ n, m.pc n = .idle ∧ prog n = op) : ∃ x', SysGoes c prog (T, s, m) x' := by
  have I := sys_inv h
  have hx := h.map_exec
  cases hw : s.wait i with
  | some n =>
    obtain ⟨hop, hks⟩ := I.wait i n hw
    have hrun : Running (calls T) n := I.run i n (.inl hw)
    refine map_goes h hrun fun m' e hn he => ⟨i, ?_⟩
    have hni : m.pc n ≠ .idle := ((RWMap.exec_book hx).inv n).1 hrun.1
    cases hp : m.pc n with
    | idle => exact absurd hp hni
    | fin r =>
      simp only [RWMap.event, hp, List.cons.injEq, and_true] at he
      subst he
      simp [Client.sync, hw]
    | rng l acc =>
      exfalso
      have : prog n ≠ .range := by
        have := mapOp_isMap hop hks
        intro h; rw [h] at this; cases this
      obtain ⟨g, G, _⟩ := RWMap.exec_inv hx
      have ho := G.ops n
      simp only [RWMap.OpOk, hp] at ho
      exact this ho.1
    | _ => simp [RWMap.event, hp] at he
  | none =>
    cases ho : (s.st.pc i).mapOp c with
    | some op =>
      obtain ⟨n, hn, hp⟩ := hm op hw ho
      have hnx : RWMap.next ptrEq prog id true m n = some (m.goto n .start) := by simp [RWMap.next, hn]
      have hs : ∃ s', s.sync c prog i (.inv n) = some s' := by
        simp only [Client.sync, hw, ho, hp, and_self, if_true]
        split <;> exact ⟨_, rfl⟩
      obtain ⟨s', hs⟩ := hs
      exact ⟨_, .sync (fun l => .refl l) hnx (by simp [RWMap.event, hn]) hs⟩
    | none =>
      cases hit : (s.st.pc i).isIter with
      | false =>
        obtain ⟨inp, s', e, hl⟩ := loc_goes hi hw ho hit
        exact ⟨_, .loc hi hl⟩
      | true =>
        cases hpc : s.st.pc i <;> rw [hpc] at hit <;> simp only [PC.isIter, Bool.false_eq_true] at hit
        rename_i it
        obtain ⟨kind, ks, n⟩ := it
        obtain ⟨hr, hpr⟩ := I.iter i ⟨kind, ks, n⟩ (by rw [hpc]; rfl)
        dsimp only at hr hpr
        subst hr
        have hrun : Running (calls T) n := I.run i n (.mk_it (by rw [hpc]; rfl) rfl)
        have hni : m.pc n ≠ .idle := ((RWMap.exec_book hx).inv n).1 hrun.1
        have hrp := range_pc h hpr
        refine map_goes h hrun fun m' e hn he => ⟨i, ?_⟩
        cases hp : m.pc n with
        | idle => exact absurd hp hni
        | fin r =>
          rw [hp] at hrp
          simp only [RWMap.event, hp, List.cons.injEq, and_true] at he
          subst he
          rcases r with _ | _ | _ | _ | ⟨_, _ | _⟩ | _ <;> first | exact hrp.elim | simp [Client.sync, hw, hpc]
        | rng l acc =>
          cases l with
          | nil => simp [RWMap.event, hp] at he
          | cons x l =>
            obtain ⟨k, a⟩ := x
            simp only [RWMap.event, hp] at he
            split at he
            · simp only [List.cons.injEq, and_true] at he
              subst he
              simp [Client.sync, hw, hpc]
            · cases he
        | _ => simp [RWMap.event, hp] at he

/-- **C154**: where no step can be made, no call is in progress. -/
theorem sys_stuck (h : Sys c prog T s m) (hm : ∀ i op, s.wait i = none → (s.st.pc i).mapOp c = some op → ∃ n, m.pc n = .idle ∧ prog n = op)
    (hno : ∀ x', ¬ SysGoes c prog (T, s, m) x') : AllBack s.st := by
  intro i
  by_contra hi
  obtain ⟨x', hx⟩ := sys_goes h hi (hm i)
  exact hno x' hx

/-! ## An example -/

/-- Follow a schedule. -/
def sysRun (c : Cfg V) (prog : Nat → RWMap.Op K Nat) : List (Cmd K V) → List (Item K V) × Client K V × RWMap.State K Nat →
    Option (List (Item K V) × Client K V × RWMap.State K Nat)
  | [], x => some x
  | .loc i inp :: l, (T, s, m) => (s.loc c i inp).bind fun y => sysRun c prog l (T ++ [.loc y.2], y.1, m)
  | .map i n :: l, (T, s, m) => (RWMap.next ptrEq prog id true m n).bind fun m' =>
      match RWMap.event prog m n with
      | [] => sysRun c prog l (T, s, m')
      | [e] => (s.sync c prog i e).bind fun s' => sysRun c prog l (T ++ [.map e], s', m')
      | _ => none

theorem sysRun_sys {l : List (Cmd K V)} : ∀ {x x' : List (Item K V) × Client K V × RWMap.State K Nat}, sysRun c prog l x = some x' →
    Sys c prog x.1 x.2.1 x.2.2 → Sys c prog x'.1 x'.2.1 x'.2.2 := by
  induction l with
  | nil => rintro x x' h hs; cases h; exact hs
  | cons y l ih =>
    rintro ⟨T, s, m⟩ x' h hs
    cases y with
    | loc i inp =>
      obtain ⟨⟨s', e⟩, h1, h2⟩ := Option.bind_eq_some_iff.1 h
      exact ih h2 (hs.loc h1)
    | map i n =>
      simp only [sysRun] at h
      obtain ⟨m', h1, h2⟩ := Option.bind_eq_some_iff.1 h
      cases he : RWMap.event prog m n with
      | nil => rw [he] at h2; exact ih h2 (hs.tau (fun l => .refl l) h1 he)
      | cons e es =>
        cases es with
        | nil =>
          rw [he] at h2
          obtain ⟨s', h3, h4⟩ := Option.bind_eq_some_iff.1 h2
          exact ih h4 (hs.sync (fun l => .refl l) h1 he h3)
        | cons => rw [he] at h2; cases h2

/-- A schedule without calls of the cache. -/
def quietCmd : Cmd K V → Bool
  | .loc _ (.call _) => false
  | _ => true

theorem sysRun_goes {l : List (Cmd K V)} (hl : ∀ y ∈ l, quietCmd y = true) : ∀ {x x' : List (Item K V) × Client K V × RWMap.State K Nat},
    sysRun c prog l x = some x' → Relation.ReflTransGen (SysGoes c prog) x x' := by
  induction l with
  | nil => rintro x x' h; cases h; exact .refl
  | cons y l ih =>
    rintro ⟨T, s, m⟩ x' h
    have ih := fun {x x'} => @ih (fun y hy => hl y (List.mem_cons_of_mem _ hy)) x x'
    have hq := hl y List.mem_cons_self
    cases y with
    | loc i inp =>
      obtain ⟨⟨s', e⟩, h1, h2⟩ := Option.bind_eq_some_iff.1 h
      refine .head (.loc (fun hp => ?_) h1) (ih h2)
      have h3 := (loc_cases h1).2.2.2.1
      cases inp <;> first | (simp [quietCmd] at hq; done) | simp [step, hp] at h3
    | map i n =>
      simp only [sysRun] at h
      obtain ⟨m', h1, h2⟩ := Option.bind_eq_some_iff.1 h
      cases he : RWMap.event prog m n with
      | nil => rw [he] at h2; exact .head (.tau (fun l => .refl l) h1 he) (ih h2)
      | cons e es =>
        cases es with
        | nil =>
          rw [he] at h2
          obtain ⟨s', h3, h4⟩ := Option.bind_eq_some_iff.1 h2
          exact .head (.sync (fun l => .refl l) h1 he h3) (ih h4)
        | cons => rw [he] at h2; cases h2

/-- `Range` at 200 ms is about to remove an expired entry, and `Load` has been called. -/
def exBusy : List (Cmd Nat Nat) := exStore ++ [.loc 2 (.call .range)] ++ maps 7 2 2 ++ [.loc 2 (.time 200000000), .loc 2 .go] ++ maps 3 2 3 ++
  [.loc 1 (.call (.load 1))]

/-- The steps that both of them have left. -/
def exRest : List (Cmd Nat Nat) := maps 4 1 1 ++ maps 3 2 3 ++
  [.loc 2 .go, .loc 2 (.cbFin true), .loc 1 (.time 105000000), .loc 1 .go, .loc 1 .go] ++ maps 2 2 2 ++ [.loc 2 .go]

def PC.isIdle : PC K V → Bool
  | .idle => true
  | _ => false

theorem PC.isIdle_iff {pc : PC K V} : pc.isIdle = true ↔ pc = .idle := by cases pc <;> simp [PC.isIdle]

theorem exBusy_rest : ((sysRun (cfg true) exCalls exBusy ([], .init, .init)).bind fun x => (sysRun (cfg true) exCalls exRest x).map fun y =>
    ([0, 1, 2].map fun i => ((x.2.1.st.pc i).isIdle, (y.2.1.st.pc i).isIdle), exRest.all quietCmd)) =
    some ([(true, true), (false, true), (false, true)], true) := by rfl

/-- Two calls in progress, and fifteen steps after which they have returned. -/
example : exRest.length = 15 ∧ ∃ x y, Sys (cfg true) exCalls x.1 x.2.1 x.2.2 ∧ x.2.1.st.pc 1 ≠ .idle ∧ x.2.1.st.pc 2 ≠ .idle ∧
    Relation.ReflTransGen (SysGoes (cfg true) exCalls) x y ∧ y.2.1.st.pc 1 = .idle ∧ y.2.1.st.pc 2 = .idle := by
  refine ⟨rfl, ?_⟩
  obtain ⟨x, h1, h2⟩ := Option.bind_eq_some_iff.1 exBusy_rest
  obtain ⟨y, h3, h4⟩ := Option.map_eq_some_iff.1 h2
  simp only [List.map_cons, List.map_nil, Prod.mk.injEq, List.cons.injEq, and_true] at h4
  simp only [← Bool.not_eq_true, PC.isIdle_iff] at h4
  refine ⟨x, y, sysRun_sys h1 .init, h4.1.2.1.1, h4.1.2.2.1, sysRun_goes (List.all_eq_true.1 h4.2) h3, h4.1.2.1.2, h4.1.2.2.2⟩

end Verif.SyncCache
