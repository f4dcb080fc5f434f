import Mathlib.Data.List.Dedup
import Verif.RWMap.Whole
import Verif.SyncCache.Sub
/-!
# `synccache` over the steps of `RWMap` does what it does over an atomic map

Walk along an execution of the whole, with the instants at which the calls of the map take effect, and let the machine of `Model.lean`
follow: an operation of the map is done at its instant, the snapshot of `Range` is taken where it is called.
-/
namespace Verif.SyncCache
open RWMap (effects apply resultOn AMap LEv Whole visitsOf)
variable {K V : Type}

/-- The two sides of an execution together. -/
inductive Merge : List (Item K V) → List (LEv K Nat) → Prop where
  | nil : Merge [] []
  | loc {e T L} : Merge T L → Merge (.loc e :: T) L
  | eff {n T L} : Merge T L → Merge T (.eff n :: L)
  | both {e x T L} : x.ev? = some e → Merge T L → Merge (.map e :: T) (x :: L)

theorem merge {T : List (Item K V)} : ∀ {L : List (LEv K Nat)}, T.filterMap Item.map? = L.filterMap LEv.ev? → Merge T L := by
  induction T with
  | nil =>
    intro L h
    induction L with
    | nil => exact .nil
    | cons x L ih =>
      cases hx : x.ev? with
      | some e => rw [List.filterMap_cons, hx] at h; cases h
      | none =>
        cases x with
        | eff n => exact .eff (ih (by rw [List.filterMap_cons, hx] at h; exact h))
        | _ => cases hx
  | cons t T ih =>
    intro L h
    cases t with
    | loc e => exact .loc (ih h)
    | map e =>
      induction L with
      | nil => cases h
      | cons x L ihL =>
        cases hx : x.ev? with
        | some e' =>
          rw [List.filterMap_cons, List.filterMap_cons, hx] at h
          injection h with h1 h2
          cases h1
          exact .both hx (ih h2)
        | none =>
          cases x with
          | eff n => exact .eff (ihL (by rw [List.filterMap_cons (l := L), hx] at h; exact h))
          | _ => cases hx

/-- The pairs that the call `n` of Range gives its function in `L`. -/
abbrev vis (n : Nat) (L : List (LEv K Nat)) : List (K × Nat) := visitsOf n (L.filterMap LEv.ev?)

theorem vis_append (n : Nat) (L M : List (LEv K Nat)) : vis n (L ++ M) = vis n L ++ vis n M := by
  simp only [vis, visitsOf, List.filterMap_append]

theorem vis_cons (n k a) (M : List (LEv K Nat)) : vis n (.visit n k a :: M) = (k, a) :: vis n M := by
  simp only [vis, visitsOf, List.filterMap_cons, LEv.ev?, if_true]

theorem vis_skip (n : Nat) (x : LEv K Nat) (M : List (LEv K Nat)) (h : ∀ k a, x ≠ .visit n k a) : vis n (x :: M) = vis n M := by
  cases x with
  | visit m k a =>
    have : m ≠ n := by rintro rfl; exact h k a rfl
    simp only [vis, visitsOf, List.filterMap_cons, LEv.ev?, this, if_false]
  | eff => rfl
  | inv => rfl
  | ret => rfl

theorem vis_nil {n : Nat} {M : List (LEv K Nat)} (h : ∀ k a, .visit n k a ∉ M) : vis n M = [] := by
  induction M with
  | nil => rfl
  | cons x M ih =>
    rw [vis_skip]
    · exact ih fun k a hm => h k a (List.mem_cons_of_mem _ hm)
    · rintro k a rfl; exact h k a List.mem_cons_self

variable [DecidableEq K]

/-- A loop: `rest` are the keys to come in the other machine, `st` when its snapshot was taken. -/
structure ItRel (prog : Nat → RWMap.Op K Nat) (L1 L2 : List (LEv K Nat)) (hist : List (Map K)) (n : Nat) (rest : List K) (st : Nat) : Prop where
  op : prog n = .range
  inv : .inv n ∈ L1
  keys : ∃ extra, rest = (vis n L2).map Prod.fst ++ extra ∧ ∀ k ∈ extra, k ∉ (vis n (L1 ++ L2)).map Prod.fst
  past : ∀ M1 M2, L1 = M1 ++ M2 → .inv n ∈ M1 →
    ∃ j m, st ≤ j ∧ hist[j]? = some m ∧ ∀ k, m.get k = effects ptrEq prog M1 AMap.empty k

/-- A thread: its program counter here and in the other machine, and the call it waits for. -/
structure Thr (c : Cfg V) (prog : Nat → RWMap.Op K Nat) (L1 L2 : List (LEv K Nat)) (hist : List (Map K)) (pc pa : PC K V) (w : Option Nat)
    (rest : List K) (st : Nat) : Prop where
  free : w = none → pa = pc.sub rest st
  wait : ∀ n, w = some n → pc.mapOp c = some (prog n) ∧ (prog n).isMap = true ∧ .inv n ∈ L1 ∧
    ((.eff n ∉ L1 ∧ pa = pc.sub rest st) ∨
      ∃ M1 M2, L1 = M1 ++ .eff n :: M2 ∧
        pa = (pc.cont c (resultOn ptrEq prog n (effects ptrEq prog M1 AMap.empty))).sub rest st)
  loop : ∀ it, pc.it? = some it → it.rest = [] ∧ ItRel prog L1 L2 hist it.start rest st

structure Rel (c : Cfg V) (prog : Nat → RWMap.Op K Nat) (L1 L2 : List (LEv K Nat)) (s : Client K V) (hist : List (Map K)) (as : State K V) : Prop where
  map : ∀ k, as.m.get k = effects ptrEq prog L1 AMap.empty k
  ents : as.ents = s.st.ents
  reg : as.reg = s.st.reg
  last : hist[hist.length - 1]? = some as.m
  thr : ∀ i, ∃ rest st, Thr c prog L1 L2 hist (s.st.pc i) (as.pc i) (s.wait i) rest st
  one : ∀ i j n, s.wait i = some n → s.wait j = some n → i = j
  loops : ∀ i j it it', (s.st.pc i).it? = some it → (s.st.pc j).it? = some it' → it.start = it'.start → i = j
  pend : ∀ n, (prog n).isMap = true → .inv n ∈ L1 → (∀ r, .ret n r ∉ L1) → ∃ i, s.wait i = some n

section
variable {c : Cfg V} {prog : Nat → RWMap.Op K Nat} {L1 L2 : List (LEv K Nat)} {s : Client K V} {hist hist' : List (Map K)} {as : State K V}
variable {n : Nat} {rest : List K} {st : Nat} {pc pa : PC K V} {w : Option Nat} {x : LEv K Nat}

theorem ItRel.lt (h : ItRel prog L1 L2 hist n rest st) : st < hist.length := by
  obtain ⟨j, m, h1, h2, _⟩ := h.past L1 [] (by simp) h.inv
  have := (List.getElem?_eq_some_iff.1 h2).1
  omega

theorem get_prefix (h : hist <+: hist') {j : Nat} {m : Map K} (hj : hist[j]? = some m) : hist'[j]? = some m := by
  obtain ⟨t, rfl⟩ := h
  rw [List.getElem?_append_left (List.getElem?_eq_some_iff.1 hj).1]
  exact hj

theorem ItRel.grow (h : ItRel prog L1 L2 hist n rest st) (hp : hist <+: hist') : ItRel prog L1 L2 hist' n rest st :=
  ⟨h.op, h.inv, h.keys, fun M1 M2 e hi =>
    let ⟨j, m, h1, h2, h3⟩ := h.past M1 M2 e hi
    ⟨j, m, h1, get_prefix hp h2, h3⟩⟩

/-- One more element: the instants in the past. -/
theorem ItRel.past_snoc (h : ItRel prog L1 L2 hist n rest st) (hp : hist <+: hist')
    {m' : Map K} (hl : hist'[hist'.length - 1]? = some m') (hm : ∀ k, m'.get k = effects ptrEq prog (L1 ++ [x]) AMap.empty k) :
    ∀ M1 M2, L1 ++ [x] = M1 ++ M2 → .inv n ∈ M1 →
      ∃ j m, st ≤ j ∧ hist'[j]? = some m ∧ ∀ k, m.get k = effects ptrEq prog M1 AMap.empty k := by
  intro M1 M2 e hi
  rcases List.eq_nil_or_concat M2 with rfl | ⟨M2, y, rfl⟩
  · rw [List.append_nil] at e
    subst e
    have := hp.length_le
    have := h.lt
    exact ⟨_, _, by omega, hl, hm⟩
  · rw [List.concat_eq_append, ← List.append_assoc] at e
    obtain ⟨e, _⟩ := List.append_inj' e rfl
    exact (h.grow hp).past M1 M2 e hi

theorem ItRel.snoc (h : ItRel prog L1 (x :: L2) hist n rest st) (hp : hist <+: hist')
    {m' : Map K} (hl : hist'[hist'.length - 1]? = some m') (hm : ∀ k, m'.get k = effects ptrEq prog (L1 ++ [x]) AMap.empty k)
    (hv : ∀ k a, x ≠ .visit n k a) : ItRel prog (L1 ++ [x]) L2 hist' n rest st := by
  refine ⟨h.op, List.mem_append_left _ h.inv, ?_, h.past_snoc hp hl hm⟩
  obtain ⟨extra, h1, h2⟩ := h.keys
  rw [vis_skip n x L2 hv] at h1
  exact ⟨extra, h1, by simpa using h2⟩

theorem Thr.grow (h : Thr c prog L1 L2 hist pc pa w rest st) (hp : hist <+: hist') : Thr c prog L1 L2 hist' pc pa w rest st :=
  ⟨h.free, h.wait, fun it hi => ⟨(h.loop it hi).1, (h.loop it hi).2.grow hp⟩⟩

/-- A thread that has nothing to do with the next element. -/
theorem Thr.snoc (h : Thr c prog L1 (x :: L2) hist pc pa w rest st) (hp : hist <+: hist')
    {m' : Map K} (hl : hist'[hist'.length - 1]? = some m') (hm : ∀ k, m'.get k = effects ptrEq prog (L1 ++ [x]) AMap.empty k)
    (hv : ∀ it, pc.it? = some it → ∀ k a, x ≠ .visit it.start k a) (he : ∀ n, w = some n → x ≠ .eff n) :
    Thr c prog (L1 ++ [x]) L2 hist' pc pa w rest st := by
  refine ⟨h.free, fun n hn => ?_, fun it hi => ⟨(h.loop it hi).1, (h.loop it hi).2.snoc hp hl hm (hv it hi)⟩⟩
  obtain ⟨h1, h2, h3, h4⟩ := h.wait n hn
  refine ⟨h1, h2, List.mem_append_left _ h3, ?_⟩
  rcases h4 with ⟨h4, h5⟩ | ⟨M1, M2, h4, h5⟩
  · refine .inl ⟨fun hm => ?_, h5⟩
    rcases List.mem_append.1 hm with hm | hm
    · exact h4 hm
    · exact he n hn (List.mem_singleton.1 hm).symm
  · exact .inr ⟨M1, M2 ++ [x], by rw [h4]; simp, h5⟩
end

section
variable {c : Cfg V} {prog : Nat → RWMap.Op K Nat} {L1 L2 : List (LEv K Nat)} {n : Nat}

theorem eff_none {x : LEv K Nat} (h : ∀ n, x = .eff n → (prog n).isMap = false) (k : K) :
    effects ptrEq prog (L1 ++ [x]) AMap.empty k = effects ptrEq prog L1 AMap.empty k := by
  rw [RWMap.effects_append]
  cases x with
  | eff n =>
    have := h n rfl
    simp only [effects]
    cases hp : prog n <;> rw [hp] at this <;> simp [RWMap.Op.isMap] at this <;> simp [apply]
  | _ => rfl

theorem shape_eff' {P Q : List (LEv K Nat)} {r : RWMap.Res K Nat} (h : P ++ .eff n :: Q = [] ∨ P ++ .eff n :: Q = [.inv n] ∨
    P ++ .eff n :: Q = [.inv n, .eff n] ∨ ∃ r, P ++ .eff n :: Q = [.inv n, .eff n, .ret n r]) : .ret n r ∉ P := by
  intro hr
  match P, h, hr with
  | [], _, h => cases h
  | [a], h, h' =>
    simp only [List.mem_singleton] at h'
    subst h'
    simp at h
  | [a, b], h, h' => simp at h
  | _ :: _ :: _ :: _, h, _ => simp at h

theorem shape_ret' {P Q : List (LEv K Nat)} {r : RWMap.Res K Nat} (h : P ++ .ret n r :: Q = [] ∨ P ++ .ret n r :: Q = [.inv n] ∨
    P ++ .ret n r :: Q = [.inv n, .eff n] ∨ ∃ r', P ++ .ret n r :: Q = [.inv n, .eff n, .ret n r']) : .eff n ∈ P := by
  match P, h with
  | [], h => simp at h
  | [a], h => simp at h
  | [a, b], h => simp at h; simp [h]
  | _ :: _ :: _ :: _, h => simp at h

theorem shape_eff (W : Whole ptrEq prog (L1 ++ .eff n :: L2)) (hm : (prog n).isMap = true) (r : RWMap.Res K Nat) : .ret n r ∉ L1 := by
  intro hr
  have hs := (W.lin.2 n hm).1
  rw [List.filter_append, List.filter_cons_of_pos (by simp [LEv.call])] at hs
  exact shape_eff' hs (List.mem_filter.2 ⟨hr, by simp [LEv.call]⟩)

theorem shape_ret {r : RWMap.Res K Nat} (W : Whole ptrEq prog (L1 ++ .ret n r :: L2)) (hm : (prog n).isMap = true) :
    .eff n ∈ L1 := by
  have hs := (W.lin.2 n hm).1
  rw [List.filter_append, List.filter_cons_of_pos (by simp [LEv.call])] at hs
  exact (List.mem_filter.1 (shape_ret' hs)).1

theorem snap_keys (m : Map K) (vs : List K) (hv : vs.Nodup) :
    ∃ extra, (vs ++ extra).Nodup ∧ (∀ x ∈ m, x.1 ∈ vs ++ extra) ∧ ∀ k ∈ extra, k ∉ vs := by
  refine ⟨((m.map Prod.fst).dedup.filter (· ∉ vs)), ?_, ?_, ?_⟩
  · refine List.nodup_append.2 ⟨hv, (List.nodup_dedup _).filter _, fun a ha b hb => ?_⟩
    rintro rfl
    simp at hb
    exact hb.2 ha
  · intro x hx
    by_cases h : x.1 ∈ vs
    · exact List.mem_append_left _ h
    · refine List.mem_append_right _ ?_
      simp only [List.mem_filter, List.mem_dedup, List.mem_map, decide_eq_true_eq]
      exact ⟨⟨x, hx, rfl⟩, h⟩
  · intro k hk
    simp at hk
    exact hk.2

theorem Exec.last {tr : List (Ev K V)} {hist : List (Map K)} {s : State K V} (h : Exec c tr hist s) : hist[hist.length - 1]? = some s.m := by
  cases h with
  | nil => rfl
  | snoc => simp

theorem update_same {i : Nat} {f : Nat → PC K V} {p q : PC K V} : Function.update (Function.update f i p) i q = Function.update f i q :=
  Function.update_idem ..

/-- The end of a loop, with the keys that Range has not found. -/
theorem drain {i : Nat} {kind : Kind} {st : Nat} : ∀ (extra : List K) {tr : List (Ev K V)} {hist : List (Map K)} {as : State K V}, Exec c tr hist as →
    as.pc i = .iter ⟨kind, extra, st⟩ → (∀ k ∈ extra, ∃ j m, st ≤ j ∧ hist[j]? = some m ∧ m.get k = none) →
    ∃ tr' hist', Exec c tr' hist' (as.go i (.done .unit)) ∧ tr'.filter Ev.visible = tr.filter Ev.visible ∧ hist <+: hist' := by
  intro extra
  induction extra with
  | nil =>
    intro tr hist as hx hpc _
    refine ⟨_, _, hx.snoc (i := i) (inp := .go) (e := .tau i) (s' := as.go i (.done .unit)) (by simp only [step, hpc]), ?_, List.prefix_append ..⟩
    simp [Ev.visible]
  | cons k extra ih =>
    intro tr hist as hx hpc hk
    obtain ⟨j, m, h1, h2, h3⟩ := hk k List.mem_cons_self
    have hx' := hx.snoc (i := i) (inp := .visit j) (e := .tau i) (s' := as.go i (.iter ⟨kind, extra, st⟩))
      (by simp only [step, hpc, h2, h3, Nat.not_lt.2 h1, if_false])
    obtain ⟨tr', hist', h4, h5, h6⟩ := ih hx' (by simp [State.go]) (fun k' hk' =>
      let ⟨j, m, a1, a2, a3⟩ := hk k' (List.mem_cons_of_mem _ hk')
      ⟨j, m, a1, get_prefix (List.prefix_append ..) a2, a3⟩)
    refine ⟨tr', hist', ?_, ?_, (List.prefix_append ..).trans h6⟩
    · simpa [State.go] using h4
    · rw [h5]; simp [Ev.visible]
end

section
variable {c : Cfg V} {prog : Nat → RWMap.Op K Nat} {L1 L2 : List (LEv K Nat)} {s s' : Client K V} {tr : List (Ev K V)} {hist : List (Map K)}
  {as : State K V} {i n : Nat}

theorem it_update {f : Nat → PC K V} {pc' : PC K V} (h : pc'.it? = none ∨ pc'.it? = (f i).it?) {j : Nat} {it : Iter K}
    (hj : (Function.update f i pc' j).it? = some it) : (f j).it? = some it := by
  by_cases hij : j = i
  · subst hij
    rw [Function.update_self] at hj
    rcases h with h | h
    · rw [h] at hj; cases hj
    · rw [← h]; exact hj
  · rwa [Function.update_of_ne hij] at hj

theorem Rel.loc (R : Rel c prog L1 L2 s hist as) (hx : Exec c tr hist as) {inp : In K V} {e : Ev K V} (hs : s.loc c i inp = some (s', e)) :
    ∃ as', Exec c (tr ++ [e]) (hist ++ [as'.m]) as' ∧ Rel c prog L1 L2 s' (hist ++ [as'.m]) as' := by
  unfold Client.loc at hs
  split at hs
  case isFalse => cases hs
  case isTrue hc =>
    obtain ⟨hw, hop, hit⟩ := hc
    simp only [Option.map_eq_some_iff, Prod.mk.injEq, Prod.exists] at hs
    obtain ⟨t, e', hs, rfl, rfl⟩ := hs
    obtain ⟨rest, st, H⟩ := R.thr i
    obtain ⟨pc', h1, h2, h3⟩ := loc_sub (hist := hist) R.ents R.reg (H.free hw) hop hit hs
    have hp : hist <+: hist ++ [as.m] := List.prefix_append ..
    refine ⟨_, hx.snoc h2, R.map, rfl, rfl, by simp, fun j => ?_, R.one, fun j j' it it' hj hj' => ?_, R.pend⟩
    · simp only [h1]
      by_cases hij : j = i
      · subst hij
        refine ⟨rest, st, fun _ => by simp, fun n hn => by simp [hw] at hn, fun it hj => ?_⟩
        exact (H.grow hp).loop it (it_update h3 hj)
      · rw [Function.update_of_ne hij, Function.update_of_ne hij]
        obtain ⟨rest, st, H⟩ := R.thr j
        exact ⟨rest, st, H.grow hp⟩
    · simp only [h1] at hj hj'
      exact R.loops j j' it it' (it_update h3 hj) (it_update h3 hj')

/-- An element that is nobody's business in the other machine. -/
theorem Rel.skip {x : LEv K Nat} (R : Rel c prog L1 (x :: L2) s hist as) (hm : ∀ n, x = .eff n → (prog n).isMap = false)
    (hv : ∀ n k a, x ≠ .visit n k a) : ∀ j, ∃ rest st, Thr c prog (L1 ++ [x]) L2 hist (s.st.pc j) (as.pc j) (s.wait j) rest st := by
  intro j
  obtain ⟨rest, st, H⟩ := R.thr j
  refine ⟨rest, st, H.snoc List.prefix_rfl R.last (fun k => ?_) (fun _ _ => hv _) ?_⟩
  · rw [eff_none hm]; exact R.map k
  · rintro n hn rfl
    have := (H.wait n hn).2.1
    rw [hm n rfl] at this
    cases this

/-- A call of the map takes effect. -/
theorem Rel.eff (R : Rel c prog L1 (.eff n :: L2) s hist as) (W : Whole ptrEq prog (L1 ++ .eff n :: L2)) (hx : Exec c tr hist as) :
    ∃ tr' hist' as', Exec c tr' hist' as' ∧ Rel c prog (L1 ++ [.eff n]) L2 s hist' as' ∧ tr'.filter Ev.visible = tr.filter Ev.visible := by
  cases hm : (prog n).isMap with
  | false =>
    have hm' : ∀ m, (LEv.eff n : LEv K Nat) = .eff m → (prog m).isMap = false := by rintro m h; cases h; exact hm
    refine ⟨tr, hist, as, hx, ⟨fun k => ?_, R.ents, R.reg, R.last, R.skip hm' (by simp), R.one, R.loops, fun m h1 h2 h3 => ?_⟩, rfl⟩
    · rw [eff_none hm']; exact R.map k
    · simp only [List.mem_append, List.mem_singleton, reduceCtorEq, or_false] at h2 h3
      exact R.pend m h1 h2 h3
  | true =>
    have h0 := RWMap.eff_once W.lin hm rfl
    obtain ⟨i, hi⟩ := R.pend n hm h0.1 (shape_eff W hm)
    obtain ⟨rest, st, H⟩ := R.thr i
    obtain ⟨hop, -, hinv, H'⟩ := H.wait n hi
    rcases H' with ⟨-, hpa⟩ | ⟨M1, M2, h1, -⟩
    case inr => rw [h1] at h0; simp at h0
    obtain ⟨m', e, h1, h2, h3⟩ := map_sub (hist := hist) hpa hop hm R.map
    have hp : hist <+: hist ++ [m'] := List.prefix_append ..
    have hm3 : ∀ k, m'.get k = effects ptrEq prog (L1 ++ [.eff n]) AMap.empty k := by
      intro k; rw [h3, RWMap.eff_snoc]
    refine ⟨_, _, _, hx.snoc h1, ⟨hm3, R.ents, R.reg, by simp, fun j => ?_, R.one, R.loops, fun m a1 a2 a3 => ?_⟩, by simp [h2]⟩
    · by_cases hij : j = i
      · subst hij
        refine ⟨rest, st, fun h => (by rw [hi] at h; cases h), fun m hm' => ?_, fun it hit => ?_⟩
        · rw [hi] at hm'
          cases hm'
          refine ⟨hop, hm, List.mem_append_left _ hinv, .inr ⟨L1, [], rfl, ?_⟩⟩
          simp [resultOn]
        · obtain ⟨a1, a2⟩ := H.loop it hit
          exact ⟨a1, a2.snoc hp (by simp) hm3 (by simp)⟩
      · obtain ⟨rest, st, H⟩ := R.thr j
        refine ⟨rest, st, ?_⟩
        dsimp only
        rw [Function.update_of_ne hij]
        refine H.snoc hp (by simp) hm3 (by simp) ?_
        rintro m hm' h
        cases h
        exact hij (R.one j i n hm' hi)
    · simp only [List.mem_append, List.mem_singleton, reduceCtorEq, or_false] at a2 a3
      exact R.pend m a1 a2 a3

/-- A call of the map is made. -/
theorem Rel.inv (R : Rel c prog L1 (.inv n :: L2) s hist as) (W : Whole ptrEq prog (L1 ++ .inv n :: L2)) (hx : Exec c tr hist as)
    (hs : s.sync c prog i (.inv n) = some s') :
    ∃ tr' hist' as', Exec c tr' hist' as' ∧ Rel c prog (L1 ++ [.inv n]) L2 s' hist' as' ∧ tr'.filter Ev.visible = tr.filter Ev.visible := by
  have hnew : .inv n ∉ L1 := W.once L1 n L2 rfl
  have hm' : ∀ m, (LEv.inv n : LEv K Nat) = .eff m → (prog m).isMap = false := by rintro m h; cases h
  have hmap : ∀ k, as.m.get k = effects ptrEq prog (L1 ++ [.inv n]) AMap.empty k := by
    intro k; rw [eff_none hm']; exact R.map k
  simp only [Client.sync] at hs
  split at hs
  case isFalse => cases hs
  case isTrue hc =>
  obtain ⟨hw, hop⟩ := hc
  have hother : ∀ j it, (s.st.pc j).it? = some it → it.start ≠ n := by
    rintro j it hit rfl
    obtain ⟨rest, st, H⟩ := R.thr j
    exact hnew (H.loop it hit).2.inv
  split at hs
  · next kind hpc =>
    cases hs
    rw [hpc] at hop
    simp only [PC.mapOp, Option.some.injEq] at hop
    obtain ⟨_, _, H⟩ := R.thr i
    have hpa := H.free hw
    rw [hpc] at hpa
    simp only [PC.sub] at hpa
    have hv1 : vis n (L1 ++ .inv n :: L2) = vis n L2 := by
      rw [vis_append, vis_skip n (.inv n) L2 (by simp), vis_nil, List.nil_append]
      intro k a hmem
      obtain ⟨A, B, rfl⟩ := List.append_of_mem hmem
      obtain ⟨M1, M2, e, hi, _⟩ := W.vis n k a A (B ++ .inv n :: L2) (by simp)
      exact hnew (List.mem_append_left _ (e ▸ List.mem_append_left _ hi))
    have hnd := W.nodup n
    rw [show visitsOf n _ = _ from hv1] at hnd
    obtain ⟨extra, k1, k2, k3⟩ := snap_keys as.m _ hnd
    have hp : hist <+: hist ++ [as.m] := List.prefix_append ..
    have hstep : step c hist as i (.snap ((vis n L2).map Prod.fst ++ extra)) =
        some (as.go i (.iter ⟨kind, (vis n L2).map Prod.fst ++ extra, hist.length - 1⟩), .tau i) := by
      simp only [step, hpa]
      rw [if_pos ⟨k1, k2⟩]
    refine ⟨_, _, _, hx.snoc hstep, ⟨hmap, R.ents, R.reg, by simp, fun j => ?_, R.one, ?_, fun m a1 a2 a3 => ?_⟩, by simp [Ev.visible]⟩
    · by_cases hij : j = i
      · subst hij
        refine ⟨(vis n L2).map Prod.fst ++ extra, hist.length - 1, ?_⟩
        simp only [State.go, Function.update_self]
        refine ⟨fun _ => rfl, fun m hm => by simp [hw] at hm, fun it hit => ?_⟩
        cases hit
        refine ⟨rfl, hop.symm, by simp, ⟨extra, rfl, ?_⟩, fun M1 M2 e hi => ?_⟩
        · simpa [hv1] using k3
        · rcases List.eq_nil_or_concat M2 with rfl | ⟨M2, y, rfl⟩
          · rw [List.append_nil] at e
            subst e
            exact ⟨hist.length, as.m, by omega, by simp, hmap⟩
          · rw [List.concat_eq_append, ← List.append_assoc] at e
            obtain ⟨rfl, _⟩ := List.append_inj' e rfl
            exact absurd (List.mem_append_left _ hi) hnew
      · simp only [State.go, Function.update_of_ne hij]
        obtain ⟨rest, st, H⟩ := R.thr j
        exact ⟨rest, st, H.snoc hp (by simp) hmap (by simp) (by simp)⟩
    · intro j j' it it' hj hj' he
      simp only [State.go] at hj hj'
      by_cases h1 : j = i <;> by_cases h2 : j' = i
      · rw [h1, h2]
      · subst h1
        rw [Function.update_self] at hj
        rw [Function.update_of_ne h2] at hj'
        cases hj
        exact absurd he.symm (hother _ _ hj')
      · subst h2
        rw [Function.update_self] at hj'
        rw [Function.update_of_ne h1] at hj
        cases hj'
        exact absurd he (hother _ _ hj)
      · rw [Function.update_of_ne h1] at hj
        rw [Function.update_of_ne h2] at hj'
        exact R.loops j j' it it' hj hj' he
    · simp only [List.mem_append, List.mem_singleton, reduceCtorEq, or_false, LEv.inv.injEq] at a2 a3
      rcases a2 with a2 | rfl
      · exact R.pend m a1 a2 a3
      · rw [← hop] at a1; cases a1
  · next hns =>
    cases hs
    have hmp := mapOp_isMap hop hns
    refine ⟨tr, hist, as, hx, ⟨hmap, R.ents, R.reg, R.last, fun j => ?_, ?_, R.loops, fun m a1 a2 a3 => ?_⟩, rfl⟩
    · obtain ⟨rest, st, H⟩ := R.skip hm' (by simp) j
      refine ⟨rest, st, ?_⟩
      by_cases hij : j = i
      · subst hij
        simp only [Function.update_self]
        refine ⟨fun h => by simp at h, fun m hm => ?_, H.loop⟩
        cases hm
        refine ⟨hop, hmp, by simp, .inl ⟨fun he => ?_, H.free hw⟩⟩
        simp only [List.mem_append, List.mem_singleton, reduceCtorEq, or_false] at he
        obtain ⟨A, B, rfl⟩ := List.append_of_mem he
        have := (RWMap.eff_once W.lin hmp (M := A) (M' := B ++ .inv n :: L2) (by simp)).1
        exact hnew (List.mem_append_left _ this)
      · simp only [Function.update_of_ne hij]
        exact H
    · intro j j' m hj hj'
      simp only at hj hj'
      have hold : ∀ j, s.wait j ≠ some n := by
        intro j hj
        obtain ⟨rest, st, H⟩ := R.thr j
        exact hnew (H.wait n hj).2.2.1
      by_cases h1 : j = i <;> by_cases h2 : j' = i
      · rw [h1, h2]
      · subst h1
        rw [Function.update_self] at hj
        rw [Function.update_of_ne h2] at hj'
        cases hj
        exact absurd hj' (hold _)
      · subst h2
        rw [Function.update_self] at hj'
        rw [Function.update_of_ne h1] at hj
        cases hj'
        exact absurd hj (hold _)
      · rw [Function.update_of_ne h1] at hj
        rw [Function.update_of_ne h2] at hj'
        exact R.one j j' m hj hj'
    · simp only [List.mem_append, List.mem_singleton, reduceCtorEq, or_false, LEv.inv.injEq] at a2 a3
      rcases a2 with a2 | rfl
      · obtain ⟨j, hj⟩ := R.pend m a1 a2 a3
        refine ⟨j, ?_⟩
        have : j ≠ i := by rintro rfl; rw [hw] at hj; cases hj
        simp only [Function.update_of_ne this]
        exact hj
      · exact ⟨i, by simp⟩

/-- Range calls its function. -/
theorem Rel.visit {k : K} {a : Nat} (R : Rel c prog L1 (.visit n k a :: L2) s hist as) (W : Whole ptrEq prog (L1 ++ .visit n k a :: L2))
    (hx : Exec c tr hist as) (hs : s.sync c prog i (.visit n k a) = some s') :
    ∃ tr' hist' as', Exec c tr' hist' as' ∧ Rel c prog (L1 ++ [.visit n k a]) L2 s' hist' as' ∧
      tr'.filter Ev.visible = tr.filter Ev.visible := by
  have hm' : ∀ m, (LEv.visit n k a : LEv K Nat) = .eff m → (prog m).isMap = false := by rintro m h; cases h
  have hmap : ∀ k', as.m.get k' = effects ptrEq prog (L1 ++ [.visit n k a]) AMap.empty k' := by
    intro k; rw [eff_none hm']; exact R.map k
  simp only [Client.sync] at hs
  split at hs
  case h_2 => cases hs
  case h_1 kind m hw hpc =>
  split at hs
  case isFalse => cases hs
  case isTrue hmn =>
  subst hmn
  cases hs
  obtain ⟨rest, st, H⟩ := R.thr i
  have hpa := H.free hw
  rw [hpc] at hpa
  obtain ⟨-, I⟩ := H.loop ⟨kind, [], m⟩ (by rw [hpc]; rfl)
  obtain ⟨extra, e1, e2⟩ := I.keys
  rw [vis_cons] at e1
  obtain ⟨M1, M2, h1, h2, h3⟩ := W.vis m k a L1 L2 rfl
  obtain ⟨j, m', j1, j2, j3⟩ := I.past M1 M2 h1 h2
  rw [List.map_cons, List.cons_append] at e1
  subst e1
  have hp : hist <+: hist ++ [as.m] := List.prefix_append ..
  have hstep : step c hist as i (.visit j) =
      some (as.go i (Iter.visit ⟨kind, (vis m L2).map Prod.fst ++ extra, st⟩ k a), .tau i) := by
    simp only [step, hpa, PC.sub, Iter.sub, j2, j3, h3, Nat.not_lt.2 j1, if_false]
  refine ⟨_, _, _, hx.snoc hstep, ⟨hmap, R.ents, R.reg, by simp, fun j' => ?_, R.one, ?_, fun m a1 a2 a3 => ?_⟩, by simp [Ev.visible]⟩
  · by_cases hij : j' = i
    · subst hij
      refine ⟨(vis m L2).map Prod.fst ++ extra, st, ?_⟩
      simp only [State.go, Function.update_self]
      refine ⟨fun _ => visit_sub (r := (vis m L2).map Prod.fst ++ extra) (st := st) ⟨kind, [], m⟩ k a, fun m hm => by simp [hw] at hm, fun it hit => ?_⟩
      rw [visit_it] at hit
      cases hit
      refine ⟨rfl, I.op, List.mem_append_left _ I.inv, ⟨extra, rfl, by simpa using e2⟩, I.past_snoc hp (by simp) hmap⟩
    · simp only [State.go, Function.update_of_ne hij]
      obtain ⟨rest, st, H⟩ := R.thr j'
      refine ⟨rest, st, H.snoc hp (by simp) hmap (fun it hit k' a' he => ?_) (by simp)⟩
      injection he with he
      exact hij (R.loops j' i it ⟨kind, [], m⟩ hit (by rw [hpc]; rfl) he.symm)
  · intro j j' it it' hj hj' he
    have hi : (Iter.visit ⟨kind, [], m⟩ k a : PC K V).it? = (s.st.pc i).it? := by rw [visit_it, hpc]; rfl
    exact R.loops j j' it it' (it_update (.inr hi) hj) (it_update (.inr hi) hj') he
  · simp only [List.mem_append, List.mem_singleton, reduceCtorEq, or_false] at a2 a3
    exact R.pend m a1 a2 a3

/-- A call of the map returns. -/
theorem Rel.ret {r : RWMap.Res K Nat} (R : Rel c prog L1 (.ret n r :: L2) s hist as) (W : Whole ptrEq prog (L1 ++ .ret n r :: L2))
    (hx : Exec c tr hist as) (hs : s.sync c prog i (.ret n r) = some s') :
    ∃ tr' hist' as', Exec c tr' hist' as' ∧ Rel c prog (L1 ++ [.ret n r]) L2 s' hist' as' ∧
      tr'.filter Ev.visible = tr.filter Ev.visible := by
  have hm' : ∀ m, (LEv.ret n r : LEv K Nat) = .eff m → (prog m).isMap = false := by rintro m h; cases h
  have hmap : ∀ k', as.m.get k' = effects ptrEq prog (L1 ++ [.ret n r]) AMap.empty k' := by
    intro k; rw [eff_none hm']; exact R.map k
  simp only [Client.sync] at hs
  split at hs
  · next m hw =>
    split at hs
    case isFalse => cases hs
    case isTrue hmn =>
    subst hmn
    cases hs
    refine ⟨tr, hist, as, hx, ⟨hmap, R.ents, R.reg, R.last, fun j => ?_, ?_, ?_, fun m' a1 a2 a3 => ?_⟩, rfl⟩
    · obtain ⟨rest, st, H⟩ := R.skip hm' (by simp) j
      refine ⟨rest, st, ?_⟩
      by_cases hij : j = i
      · subst hij
        simp only [State.go, Function.update_self]
        obtain ⟨h1, h2, h3, h4⟩ := H.wait m hw
        have he := shape_ret W h2
        refine ⟨fun _ => ?_, fun m hm => by simp at hm, fun it hit => ?_⟩
        · rcases h4 with ⟨h4, _⟩ | ⟨M1, M2, h4, h5⟩
          · exact absurd (List.mem_append_left _ he) h4
          · rw [h5]
            have : r = resultOn ptrEq prog m (effects ptrEq prog M1 AMap.empty) := by
              obtain ⟨A, B, hA⟩ := List.append_of_mem he
              have hL : L1 ++ .ret m r :: L2 = A ++ .eff m :: (B ++ .ret m r :: L2) := by rw [hA]; simp
              have hr := (W.lin.2 m h2).2 A (B ++ .ret m r :: L2) r hL (by simp)
              have hL2 : L1 ++ .ret m r :: L2 = M1 ++ .eff m :: (M2 ++ L2) := by
                have := congrArg (· ++ L2) h4
                simpa using this
              have o1 := RWMap.eff_once W.lin h2 hL
              have o2 := RWMap.eff_once W.lin h2 hL2
              rw [hL] at hL2
              rcases List.append_eq_append_iff.1 hL2 with ⟨C, q1, q2⟩ | ⟨C, q1, q2⟩
              · cases C with
                | nil => simp at q1; rw [q1]; exact hr
                | cons y C =>
                  simp at q2
                  rw [← q2.1] at q1
                  rw [q1] at o2
                  simp at o2
              · cases C with
                | nil => simp at q1; rw [← q1]; exact hr
                | cons y C =>
                  simp at q2
                  rw [← q2.1] at q1
                  rw [q1] at o1
                  simp at o1
            rw [← this]
        · rcases cont_it (c := c) (s.st.pc j) r with hc | hc
          · rw [hc] at hit; cases hit
          · exact H.loop it (hc ▸ hit)
      · simp only [State.go, Function.update_of_ne hij]
        exact H
    · intro j j' m' hj hj'
      have : ∀ j, Function.update s.wait i none j = some m' → s.wait j = some m' := by
        intro j hj
        by_cases hij : j = i
        · subst hij; simp at hj
        · rwa [Function.update_of_ne hij] at hj
      exact R.one j j' m' (this j hj) (this j' hj')
    · intro j j' it it' hj hj' he
      exact R.loops j j' it it' (it_update (cont_it _ _) hj) (it_update (cont_it _ _) hj') he
    · simp only [List.mem_append, List.mem_singleton, reduceCtorEq, or_false, not_or, LEv.ret.injEq, not_and] at a2 a3
      obtain ⟨j, hj⟩ := R.pend m' a1 a2 (fun r => (a3 r).1)
      refine ⟨j, ?_⟩
      have : j ≠ i := by
        rintro rfl
        rw [hw] at hj
        cases hj
        exact (a3 r).2 rfl rfl
      simp only [Function.update_of_ne this]
      exact hj
  · next hw =>
    split at hs
    case h_2 => cases hs
    case h_1 kind m es hpc =>
    split at hs
    case isFalse => cases hs
    case isTrue hmn =>
    subst hmn
    cases hs
    obtain ⟨rest, st, H⟩ := R.thr i
    have hpa := H.free hw
    rw [hpc] at hpa
    obtain ⟨-, I⟩ := H.loop ⟨kind, [], m⟩ (by rw [hpc]; rfl)
    obtain ⟨extra, e1, e2⟩ := I.keys
    obtain ⟨l1, l2⟩ := W.last L1 m (.visited es false) L2 rfl
    rw [vis_skip _ _ _ (by simp), vis_nil l2, List.map_nil, List.nil_append] at e1
    subst e1
    have hes := W.pairs m es false (by simp)
    obtain ⟨es', stop, q1, -, -, q2⟩ := W.rng m (.visited es false) I.op (by simp)
    injection q1 with q1 q3
    subst q1 q3
    obtain ⟨tr', hist', t1, t2, t3⟩ := drain rest hx hpa fun k hk => by
      have hk' := e2 k hk
      rw [show vis m _ = _ from hes] at hk'
      obtain ⟨M1, M2, p1, p2, p3, p4⟩ := q2 rfl k hk'
      rcases List.append_eq_append_iff.1 p1 with ⟨C, c1, c2⟩ | ⟨C, c1, c2⟩
      · cases C with
        | nil =>
          simp at c1
          obtain ⟨j, m', j1, j2, j3⟩ := I.past L1 [] (by simp) I.inv
          exact ⟨j, m', j1, j2, by rw [j3, ← c1]; exact p4⟩
        | cons y C =>
          simp at c2
          rw [c2.2] at l1
          exact absurd (List.mem_append_right _ p3) (l1 _)
      · obtain ⟨j, m', j1, j2, j3⟩ := I.past M1 C c1 p2
        exact ⟨j, m', j1, j2, by rw [j3]; exact p4⟩
    refine ⟨tr', hist', _, t1, ⟨hmap, R.ents, R.reg, t1.last, fun j => ?_, R.one, ?_, fun m' a1 a2 a3 => ?_⟩, t2⟩
    · by_cases hij : j = i
      · subst hij
        refine ⟨[], 0, ?_⟩
        simp only [State.go, Function.update_self]
        exact ⟨fun _ => rfl, fun m hm => by simp [hw] at hm, fun it hit => by cases hit⟩
      · simp only [State.go, Function.update_of_ne hij]
        obtain ⟨rest, st, H⟩ := R.thr j
        exact ⟨rest, st, H.snoc t3 t1.last hmap (by simp) (by simp)⟩
    · intro j j' it it' hj hj' he
      exact R.loops j j' it it' (it_update (.inl rfl) hj) (it_update (.inl rfl) hj') he
    · simp only [List.mem_append, List.mem_singleton, reduceCtorEq, or_false, not_or] at a2 a3
      exact R.pend m' a1 a2 (fun r => (a3 r).1)
end

/-- Along an execution of the whole. -/
theorem walk {c : Cfg V} {prog : Nat → RWMap.Op K Nat} {T : List (Item K V)} {L2 : List (LEv K Nat)} (hM : Merge T L2) :
    ∀ {L1 : List (LEv K Nat)} {s s' : Client K V} {tr : List (Ev K V)} {hist : List (Map K)} {as : State K V}, Whole ptrEq prog (L1 ++ L2) →
      Run c prog s T s' → Exec c tr hist as → Rel c prog L1 L2 s hist as →
      ∃ tr' hist' as', Exec c tr' hist' as' ∧ Rel c prog (L1 ++ L2) [] s' hist' as' ∧
        tr'.filter Ev.visible = tr.filter Ev.visible ++ (T.filterMap Item.loc?).filter Ev.visible := by
  induction hM with
  | nil =>
    intro L1 s s' tr hist as W hr hx R
    cases hr
    exact ⟨tr, hist, as, hx, by simpa using R, by simp⟩
  | @loc e T L _ ih =>
    intro L1 s s' tr hist as W hr hx R
    cases hr with
    | loc hs hr =>
      obtain ⟨as', h1, h2⟩ := R.loc hx hs
      obtain ⟨tr', hist', as', h3, h4, h5⟩ := ih W hr h1 h2
      refine ⟨tr', hist', as', h3, h4, ?_⟩
      rw [h5, List.filter_append, List.append_assoc, List.filterMap_cons, show Item.loc? (.loc e) = some e from rfl]
      simp only [List.filter_cons]
      split <;> simp [List.filter_cons, *]
  | @eff n T L _ ih =>
    intro L1 s s' tr hist as W hr hx R
    obtain ⟨tr1, hist1, as1, h1, h2, h3⟩ := R.eff W hx
    obtain ⟨tr', hist', as', h4, h5, h6⟩ := ih (L1 := L1 ++ [.eff n]) (by simpa using W) hr h1 h2
    exact ⟨tr', hist', as', h4, by simpa using h5, by rw [h6, h3]⟩
  | @both e x T L hxe _ ih =>
    intro L1 s s' tr hist as W hr hx R
    cases hr with
    | @map _ i _ s1 _ _ hs hr =>
      have : ∃ tr' hist' as', Exec c tr' hist' as' ∧ Rel c prog (L1 ++ [x]) L s1 hist' as' ∧ tr'.filter Ev.visible = tr.filter Ev.visible := by
        cases x with
        | eff => cases hxe
        | inv n => cases hxe; exact R.inv W hx hs
        | visit n k a => cases hxe; exact R.visit W hx hs
        | ret n r => cases hxe; exact R.ret W hx hs
      obtain ⟨tr1, hist1, as1, h1, h2, h3⟩ := this
      obtain ⟨tr', hist', as', h4, h5, h6⟩ := ih (L1 := L1 ++ [x]) (by simpa using W) hr h1 h2
      exact ⟨tr', hist', as', h4, by simpa using h5, by rw [h6, h3]; rfl⟩

/-- An execution over the steps of `RWMap` and one over an atomic map. -/
theorem sys_refine {c : Cfg V} {prog : Nat → RWMap.Op K Nat} {T : List (Item K V)} {s : Client K V} {m : RWMap.State K Nat} (h : Sys c prog T s m) :
    ∃ tr hist as, Exec c tr hist as ∧ tr.filter Ev.visible = (T.filterMap Item.loc?).filter Ev.visible ∧
      as.ents = s.st.ents ∧ as.reg = s.st.reg := by
  obtain ⟨L, h1, W⟩ := RWMap.exec_whole h.map_exec
  have R : Rel c prog [] L .init [[]] .init := by
    refine ⟨fun _ => rfl, rfl, rfl, rfl, fun i => ⟨[], 0, fun _ => rfl, fun n hn => ?_, fun it hit => ?_⟩, fun i j n hn => ?_,
      fun i j it it' hit => ?_, fun n _ hn => ?_⟩
    · cases hn
    · cases hit
    · cases hn
    · cases hit
    · cases hn
  obtain ⟨tr, hist, as, h2, h3, h4⟩ := walk (merge h1.symm) (L1 := []) W h.run .nil R
  exact ⟨tr, hist, as, h2, by simpa using h4, h3.ents, h3.reg⟩
end Verif.SyncCache
