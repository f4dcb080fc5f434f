import Verif.Dllist.Sim
import Verif.Dllist.Ops2
import Verif.Lhashmap.Model
/-!
# `lhashmap`: the representation of a recency list
-/
namespace Verif.Dllist
variable {T : Type} {m : Mem T} {S : Nat → List Nat}

theorem moveToFront_rep (h : Rep m S) {l n : Nat} {xs ys : List Nat} (hS : S l = xs ++ n :: ys) :
    ∃ m', moveToFront m l n = some m' ∧ Rep m' (upd S l (n :: (xs ++ ys))) ∧ Same m m' := by
  have hn : n ∈ S l := by rw [hS]; simp
  have hi := h.init_of_mem hn
  unfold moveToFront
  have ho := h.owner l n hn
  split
  · next hc =>
    rcases hc with hc | hc
    · exact absurd ho hc
    · obtain ⟨h3, _⟩ := h.links hi (xs := []) (ys := S l) rfl
      rw [lastP_nil, hc] at h3
      refine ⟨m, rfl, ?_, ⟨rfl, rfl, rfl, fun _ h => h⟩⟩
      have : n :: (xs ++ ys) = S l := by
        cases xs with
        | nil => rw [hS]; rfl
        | cons a xs =>
          have hnd := h.nodup l
          rw [hS] at h3 hnd
          simp at h3
          subst h3
          simp at hnd
      rw [this, upd_self]
      exact h
  · have e : lazyInit m l = m := by simp [lazyInit, hi]
    rw [e]
    obtain ⟨m', h1, h2, h3, _⟩ := move_rep h hS (us := []) (ws := xs ++ ys) rfl
    exact ⟨m', h1, h2, h3⟩

theorem pushFront_rep (h : Rep m S) {l : Nat} (hl : l < m.freshL) (v : T) :
    ∃ m', pushFront m l v = some (m', m.fresh) ∧ Rep m' (upd S l (m.fresh :: S l)) ∧
      m'.val = upd m.val m.fresh (some v) ∧ m'.fresh = m.fresh + 1 ∧ m'.freshL = m.freshL := by
  obtain ⟨h1, h2, h3, h4, h5, _⟩ := lazyInit_rep h l hl
  obtain ⟨m', k1, k2, k3, k4, k5, _⟩ := insertValue_rep h1 h2 (xs := []) (ys := S l) rfl v
  rw [h3, h5] at *
  refine ⟨m', ?_, k2, k3, k4, by rw [k5, h4]⟩
  unfold pushFront
  rw [lastP_nil] at k1
  exact k1

theorem lRemove_rep (h : Rep m S) {l n : Nat} {xs ys : List Nat} (hS : S l = xs ++ n :: ys) :
    ∃ m' v, lRemove m l n = some (m', v) ∧ Rep m' (upd S l (xs ++ ys)) ∧ Same m m' := by
  obtain ⟨m', h1, h2, h3, _⟩ := remove_rep h hS
  refine ⟨m', m'.val n, ?_, h2, h3⟩
  have ho := h.owner l n (by rw [hS]; simp)
  simp [lRemove, ho, h1]

theorem front_rep (h : Rep m S) {l : Nat} (hi : m.inited l = true) :
    front m l = (m, (S l).head?.map .node) := by
  unfold front
  rw [h.len]
  cases hS : S l with
  | nil => simp
  | cons a t =>
    have e : lazyInit m l = m := by simp [lazyInit, hi]
    obtain ⟨h3, _⟩ := h.links hi (xs := []) (ys := S l) rfl
    rw [lastP_nil, hS] at h3
    simp only [List.length_cons, e, h3]
    rw [if_neg (by omega)]
    rfl

theorem elNext_rep (h : Rep m S) {l n : Nat} {xs ys : List Nat} (hS : S l = xs ++ n :: ys) :
    elNext m (.node n) = ys.head?.map .node := by
  have hn : n ∈ S l := by rw [hS]; simp
  obtain ⟨h3, _⟩ := h.links (h.init_of_mem hn) (xs := xs ++ [n]) (ys := ys) (by rw [hS]; simp)
  rw [lastP_concat] at h3
  simp only [elNext, h.owner l n hn, h3]
  cases ys <;> simp

end Verif.Dllist

namespace Verif.Lhashmap
open Verif.Dllist (Mem Ptr Rep upd)
variable {A K V : Type} [DecidableEq K]

/-- An element of the list: its address, its entry's address and contents. -/
structure Item (K V : Type) where
  e : Nat
  a : Nat
  k : K
  v : V

def Item.kv (y : Item K V) : K × V := (y.k, y.v)

/-- The map consists of the items `ys`, most recently used first. -/
structure Inv (s : LH K V) (S : Nat → List Nat) (ys : List (Item K V)) : Prop where
  rep : Rep s.mem S
  seq : S s.l = ys.map Item.e
  inited : s.mem.inited s.l = true
  val : ∀ y ∈ ys, s.mem.val y.e = some y.a
  ent : ∀ y ∈ ys, s.ents y.a = some (y.k, y.v)
  get : ∀ y ∈ ys, aget s.m y.k = some y.e
  mem : ∀ k e, aget s.m k = some e → ∃ y ∈ ys, y.k = k ∧ y.e = e
  addr : (ys.map Item.a).Nodup
  keys : (ys.map Item.k).Nodup
  lt : ∀ y ∈ ys, y.a < s.fresh
  wf : AWF s.m

variable {s : LH K V} {S : Nat → List Nat} {ys zs : List (Item K V)} {y : Item K V}

theorem Inv.init : Inv (new : LH K V) (fun _ => []) [] := by
  obtain ⟨h1, _⟩ := Dllist.new_rep (T := Nat) Dllist.Rep.empty
  exact ⟨h1, rfl, rfl, by simp, by simp, by simp, by simp [new, aget], by simp, by simp, by simp,
    awf_nil⟩

theorem Inv.lt_freshL (h : Inv s S ys) : s.l < s.mem.freshL := h.rep.lt_freshL h.inited

theorem Inv.entry (h : Inv s S ys) (hy : y ∈ ys) : s.entry y.e = some (y.a, y.k, y.v) := by
  simp [LH.entry, h.val y hy, h.ent y hy]

/-- The items of another key. -/
theorem split_key {ys1 ys2 : List (Item K V)} (hk : ((ys1 ++ y :: ys2).map Item.k).Nodup) :
    ∀ z ∈ ys1 ++ ys2, z.k ≠ y.k := by
  intro z hz he
  simp only [List.map_append, List.map_cons, List.nodup_append, List.nodup_cons] at hk
  obtain ⟨h1, ⟨h2, h3⟩, h4⟩ := hk
  rw [List.mem_append] at hz
  rcases hz with hz | hz
  · exact h4 z.k (List.mem_map.2 ⟨z, hz, rfl⟩) y.k (by simp) he
  · exact h2 (he ▸ List.mem_map.2 ⟨z, hz, rfl⟩)

theorem split_addr {ys1 ys2 : List (Item K V)} (hk : ((ys1 ++ y :: ys2).map Item.a).Nodup) :
    ∀ z ∈ ys1 ++ ys2, z.a ≠ y.a := by
  intro z hz he
  simp only [List.map_append, List.map_cons, List.nodup_append, List.nodup_cons] at hk
  obtain ⟨h1, ⟨h2, h3⟩, h4⟩ := hk
  rw [List.mem_append] at hz
  rcases hz with hz | hz
  · exact h4 z.a (List.mem_map.2 ⟨z, hz, rfl⟩) y.a (by simp) he
  · exact h2 (he ▸ List.mem_map.2 ⟨z, hz, rfl⟩)

theorem moved_perm {ys1 ys2 : List (Item K V)} : (y :: (ys1 ++ ys2)).Perm (ys1 ++ y :: ys2) :=
  List.perm_middle.symm

theorem Inv.move {ys1 ys2 : List (Item K V)} (h : Inv s S (ys1 ++ y :: ys2)) :
    ∃ mem', Dllist.moveToFront s.mem s.l y.e = some mem' ∧
      ∃ S', Inv { s with mem := mem' } S' (y :: (ys1 ++ ys2)) := by
  obtain ⟨m', h1, h2, h3⟩ := Dllist.moveToFront_rep h.rep (l := s.l) (n := y.e)
    (xs := ys1.map Item.e) (ys := ys2.map Item.e) (by rw [h.seq]; simp)
  have hm : ∀ z, z ∈ y :: (ys1 ++ ys2) ↔ z ∈ ys1 ++ y :: ys2 := fun z => moved_perm.mem_iff
  refine ⟨m', h1, _, ⟨h2, by simp [upd], h3.inited _ h.inited, ?_, ?_, ?_, ?_, ?_, ?_, ?_, h.wf⟩⟩
  · intro z hz; show m'.val z.e = _; rw [h3.val]; exact h.val z ((hm z).1 hz)
  · intro z hz; exact h.ent z ((hm z).1 hz)
  · intro z hz; exact h.get z ((hm z).1 hz)
  · intro k e he
    obtain ⟨z, hz, hze⟩ := h.mem k e he
    exact ⟨z, (hm z).2 hz, hze⟩
  · exact (moved_perm.map _).nodup_iff.2 h.addr
  · exact (moved_perm.map _).nodup_iff.2 h.keys
  · intro z hz; exact h.lt z ((hm z).1 hz)

/-- Change the value in an entry. -/
theorem Inv.assign {ys1 ys2 : List (Item K V)} (h : Inv s S (ys1 ++ y :: ys2)) (v : V) :
    Inv { s with ents := fun x => if x = y.a then some (y.k, v) else s.ents x } S
      (ys1 ++ { y with v := v } :: ys2) := by
  have ho := split_addr h.addr
  have hmm : ∀ z ∈ ys1 ++ { y with v := v } :: ys2, z = { y with v := v } ∨ z ∈ ys1 ++ ys2 := by
    intro z hz; simp only [List.mem_append, List.mem_cons] at hz ⊢; tauto
  have hin : ∀ z ∈ ys1 ++ ys2, z ∈ ys1 ++ y :: ys2 := by
    intro z hz; simp only [List.mem_append, List.mem_cons] at hz ⊢; tauto
  have hy : y ∈ ys1 ++ y :: ys2 := by simp
  refine ⟨h.rep, by rw [h.seq]; simp, h.inited, ?_, ?_, ?_, ?_, ?_, ?_, ?_, h.wf⟩
  · intro z hz
    rcases hmm z hz with rfl | hz
    · exact h.val y hy
    · exact h.val z (hin z hz)
  · intro z hz
    rcases hmm z hz with rfl | hz
    · simp
    · simp only [if_neg (ho z hz)]; exact h.ent z (hin z hz)
  · intro z hz
    rcases hmm z hz with rfl | hz
    · exact h.get y hy
    · exact h.get z (hin z hz)
  · intro k e he
    obtain ⟨z, hz, h1, h2⟩ := h.mem k e he
    simp only [List.mem_append, List.mem_cons] at hz
    rcases hz with hz | rfl | hz
    · exact ⟨z, by simp [hz], h1, h2⟩
    · exact ⟨{ z with v := v }, by simp, h1, h2⟩
    · exact ⟨z, by simp [hz], h1, h2⟩
  · have := h.addr; simpa using this
  · have := h.keys; simpa using this
  · intro z hz
    rcases hmm z hz with rfl | hz
    · exact h.lt y hy
    · exact h.lt z (hin z hz)

/-- A new item at the front. -/
theorem Inv.push (h : Inv s S ys) {k : K} (hk : aget s.m k = none) (v : V) :
    ∃ mem', Dllist.pushFront s.mem s.l s.fresh = some (mem', s.mem.fresh) ∧
      ∃ S', Inv { s with mem := mem', m := aput s.m k s.mem.fresh, fresh := s.fresh + 1,
                         ents := fun x => if x = s.fresh then some (k, v) else s.ents x } S'
        (⟨s.mem.fresh, s.fresh, k, v⟩ :: ys) := by
  obtain ⟨m', h1, h2, h3, h4, h5⟩ := Dllist.pushFront_rep h.rep h.lt_freshL s.fresh
  have hkey : ∀ z ∈ ys, z.k ≠ k := by
    intro z hz he
    have := h.get z hz
    rw [he, hk] at this; cases this
  have hfr : ∀ z ∈ ys, z.e ≠ s.mem.fresh := by
    intro z hz he
    have := h.rep.alloc s.l z.e (by rw [h.seq]; exact List.mem_map.2 ⟨z, hz, rfl⟩)
    omega
  have hfa : ∀ z ∈ ys, z.a ≠ s.fresh := fun z hz => Nat.ne_of_lt (h.lt z hz)
  refine ⟨m', h1, _, ⟨h2, by simp [upd, h.seq], ?_, ?_, ?_, ?_, ?_, ?_, ?_, ?_, ?_⟩⟩
  · exact h2.init_of_mem (n := s.mem.fresh) (by simp [upd])
  · intro z hz
    simp only [h3]
    rcases List.mem_cons.1 hz with rfl | hz
    · simp [upd]
    · simp only [upd, if_neg (hfr z hz)]; exact h.val z hz
  · intro z hz
    rcases List.mem_cons.1 hz with rfl | hz
    · simp
    · simp only [if_neg (hfa z hz)]; exact h.ent z hz
  · intro z hz
    simp only [aget_aput]
    rcases List.mem_cons.1 hz with rfl | hz
    · simp
    · rw [if_neg (Ne.symm (hkey z hz))]; exact h.get z hz
  · intro k' e he
    simp only [aget_aput] at he
    split at he
    · next hkk => subst hkk; injection he with he; subst he; exact ⟨⟨s.mem.fresh, s.fresh, k, v⟩, by simp, rfl, rfl⟩
    · obtain ⟨z, hz, h1⟩ := h.mem k' e he
      exact ⟨z, by simp [hz], h1⟩
  · simp only [List.map_cons, List.nodup_cons, List.mem_map, not_exists, not_and]
    exact ⟨fun z hz => hfa z hz, h.addr⟩
  · simp only [List.map_cons, List.nodup_cons, List.mem_map, not_exists, not_and]
    exact ⟨fun z hz => hkey z hz, h.keys⟩
  · intro z hz
    rcases List.mem_cons.1 hz with rfl | hz
    · exact Nat.lt_succ_self _
    · exact Nat.lt_succ_of_lt (h.lt z hz)
  · exact awf_aput h.wf _ _

theorem Inv.del {ys1 ys2 : List (Item K V)} (h : Inv s S (ys1 ++ y :: ys2)) :
    ∃ mem' v, Dllist.lRemove s.mem s.l y.e = some (mem', v) ∧
      ∃ S', Inv { s with mem := mem', m := adel s.m y.k } S' (ys1 ++ ys2) := by
  obtain ⟨m', v, h1, h2, h3⟩ := Dllist.lRemove_rep h.rep (l := s.l) (n := y.e)
    (xs := ys1.map Item.e) (ys := ys2.map Item.e) (by rw [h.seq]; simp)
  have hkey := split_key h.keys
  have hin : ∀ z ∈ ys1 ++ ys2, z ∈ ys1 ++ y :: ys2 := by
    intro z hz; simp only [List.mem_append, List.mem_cons] at hz ⊢; tauto
  have hsub : (ys1 ++ ys2).Sublist (ys1 ++ y :: ys2) :=
    List.Sublist.append_left (List.sublist_cons_self _ _) _
  refine ⟨m', v, h1, _, ⟨h2, by simp [upd], h3.inited _ h.inited, ?_, ?_, ?_, ?_, ?_, ?_, ?_, ?_⟩⟩
  · intro z hz; show m'.val z.e = _; rw [h3.val]; exact h.val z (hin z hz)
  · intro z hz; exact h.ent z (hin z hz)
  · intro z hz
    simp only [aget_adel]
    rw [if_neg (Ne.symm (hkey z hz))]; exact h.get z (hin z hz)
  · intro k' e he
    simp only [aget_adel] at he
    split at he
    · cases he
    · next hne =>
      obtain ⟨z, hz, h4, h5⟩ := h.mem k' e he
      refine ⟨z, ?_, h4, h5⟩
      simp only [List.mem_append, List.mem_cons] at hz ⊢
      rcases hz with hz | rfl | hz
      · exact Or.inl hz
      · exact absurd h4 hne
      · exact Or.inr hz
  · exact h.addr.sublist (hsub.map _)
  · exact h.keys.sublist (hsub.map _)
  · intro z hz; exact h.lt z (hin z hz)
  · exact awf_adel h.wf _

theorem Inv.clear (h : Inv s S ys) : ∃ S', Inv (clear s) S' [] := by
  have := Dllist.clear_rep h.rep s.l h.lt_freshL
  refine ⟨_, ⟨this, by simp [upd, Lhashmap.clear], ?_, by simp, by simp, by simp,
    by simp [Lhashmap.clear, aget], by simp, by simp, by simp, awf_nil⟩⟩
  simp [Lhashmap.clear, Dllist.clear, Dllist.Mem.setInited, upd]

theorem Inv.length (h : Inv s S ys) : s.m.length = ys.length := by
  have hp : (s.m.map (·.1)).Perm (ys.map Item.k) := by
    rw [List.perm_ext_iff_of_nodup h.wf h.keys]
    intro k
    rw [← aget_isSome]
    constructor
    · intro hk
      obtain ⟨e, he⟩ := Option.isSome_iff_exists.1 hk
      obtain ⟨y, hy, rfl, _⟩ := h.mem k e he
      exact List.mem_map.2 ⟨y, hy, rfl⟩
    · intro hk
      obtain ⟨y, hy, rfl⟩ := List.mem_map.1 hk
      rw [h.get y hy]; rfl
  have := hp.length_eq
  simpa using this

/-- The loop of `Range`. -/
theorem Inv.rangeLoop (h : Inv s S ys) (f : A → K → V → A × Bool) : ∀ (ys2 ys1 : List (Item K V)),
    ys = ys1 ++ ys2 → ∀ (a : A) (fuel : Nat), ys2.length < fuel →
      rangeLoop (plain f) fuel s a ((ys2.map Item.e).head?.map .node) =
        some (s, Spec.visit f a (ys2.map Item.kv)) := by
  intro ys2
  induction ys2 with
  | nil =>
    intro ys1 _ a fuel hf
    cases fuel with
    | zero => simp at hf
    | succ n => rfl
  | cons y ys2 ih =>
    intro ys1 hys a fuel hf
    cases fuel with
    | zero => simp at hf
    | succ n =>
      have hn := Dllist.elNext_rep h.rep (l := s.l) (n := y.e) (xs := ys1.map Item.e)
        (ys := ys2.map Item.e) (by rw [h.seq, hys]; simp)
      have he := h.entry (y := y) (by rw [hys]; simp)
      simp only [List.map_cons, List.head?_cons, Option.map_some, Lhashmap.rangeLoop, he, plain,
        Option.bind_eq_bind, Option.bind_some, Item.kv, Spec.visit]
      rcases hfa : f a y.k y.v with ⟨a', c⟩
      cases c with
      | true =>
        simp only [if_true]
        rw [hn]
        exact ih (ys1 ++ [y]) (by rw [hys]; simp) a' n (by simp at hf; omega)
      | false => simp

end Verif.Lhashmap
