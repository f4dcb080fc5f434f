import Verif.Ring.Sim
/-!
# `ring`: every call does what the specification says (`New`, `Unlink`, the rest)
-/
namespace Verif.Ring
open Verif.Ring.Spec
variable {T : Type}

/-- The loop of `New` appends to the chain. -/
theorem newLoop_spec (dflt : T) (k : Nat) : ∀ (m : Mem T) (p : Nat), p < m.fresh →
    (newLoop dflt k m p).1.fresh = m.fresh + k ∧
    (p :: List.range' m.fresh k).getLast? = some (newLoop dflt k m p).2 ∧
    Lnk (newLoop dflt k m p).1.next (newLoop dflt k m p).1.prev (p :: List.range' m.fresh k) ∧
    (∀ y, y < m.fresh ∨ m.fresh + k ≤ y → (y ≠ p → (newLoop dflt k m p).1.next y = m.next y) ∧
      (newLoop dflt k m p).1.prev y = m.prev y) ∧
    (newLoop dflt k m p).1.val = fun y => if m.fresh ≤ y ∧ y < m.fresh + k then dflt else m.val y := by
  induction k with
  | zero =>
    intro m p hp
    refine ⟨rfl, rfl, trivial, fun y hy => ⟨fun _ => rfl, rfl⟩, ?_⟩
    funext y
    have : ¬ (m.fresh ≤ y ∧ y < m.fresh + 0) := by omega
    rw [if_neg this]; rfl
  | succ k ih =>
    intro m p hp
    obtain ⟨h1, h2, h3, h4, h5⟩ := ih ((alloc dflt m (some p)).1.setNext p (some m.fresh)) m.fresh
      (by simp [alloc, Mem.setNext])
    have hf : ((alloc dflt m (some p)).1.setNext p (some m.fresh)).fresh = m.fresh + 1 := rfl
    rw [hf] at h1 h2 h3 h4 h5
    have e : newLoop dflt (k + 1) m p =
        newLoop dflt k ((alloc dflt m (some p)).1.setNext p (some m.fresh)) m.fresh := rfl
    rw [e]
    generalize newLoop dflt k ((alloc dflt m (some p)).1.setNext p (some m.fresh)) m.fresh = R at *
    refine ⟨by rw [h1]; omega, ?_, ?_, ?_, ?_⟩
    · rw [List.range'_succ, List.getLast?_cons_cons]; exact h2
    · rw [List.range'_succ]
      refine ⟨?_, ?_, h3⟩
      · rw [(h4 p (Or.inl (by omega))).1 (by omega)]; simp [Mem.setNext, upd]
      · rw [(h4 m.fresh (Or.inl (by omega))).2]; simp [Mem.setNext, alloc, upd]
    · intro y hy
      have hyf : y ≠ m.fresh := by omega
      refine ⟨fun hyp => ?_, ?_⟩
      · rw [(h4 y (by omega)).1 hyf]; simp [Mem.setNext, alloc, upd, hyp, hyf]
      · rw [(h4 y (by omega)).2]; simp [Mem.setNext, alloc, upd, hyf]
    · rw [h5]
      funext y
      simp only [Mem.setNext, alloc, upd]
      by_cases e1 : y = m.fresh
      · subst e1
        have : ¬ (m.fresh + 1 ≤ m.fresh ∧ m.fresh < m.fresh + 1 + k) := by omega
        have h' : m.fresh ≤ m.fresh ∧ m.fresh < m.fresh + (k + 1) := by omega
        simp
      · by_cases e2 : m.fresh + 1 ≤ y ∧ y < m.fresh + 1 + k
        · rw [if_pos e2, if_pos (by omega)]
        · rw [if_neg e2, if_neg e1, if_neg (by omega)]

/-- `New(n)`, `n > 0`. -/
theorem Sim.new {m : Mem T} {s : St T} (h : Sim m s) (dflt : T) (n : Nat) :
    ∃ m', Ring.new dflt m ((n : Int) + 1) = (m', some m.fresh) ∧
      m'.fresh = m.fresh + (n + 1) ∧
      Sim m' { s.set (List.range' m.fresh (n + 1)) with
        val := fun x => if x ∈ List.range' m.fresh (n + 1) then dflt else s.val x } := by
  have hk : ((n : Int) + 1).toNat - 1 = n := by omega
  obtain ⟨h1, h2, h3, h4, h5⟩ := newLoop_spec dflt n (alloc dflt m none).1 m.fresh
    (by simp [alloc])
  have hf : (alloc dflt m none).1.fresh = m.fresh + 1 := rfl
  rw [hf] at h1 h2 h3 h4 h5
  unfold Ring.new
  rw [if_neg (by omega), hk]
  have e : alloc dflt m none = ((alloc dflt m none).1, m.fresh) := rfl
  rw [e]
  simp only
  generalize newLoop dflt n (alloc dflt m none).1 m.fresh = R at *
  obtain ⟨M, p⟩ := R
  simp only at *
  refine ⟨_, rfl, ?_, ?_, ?_⟩
  · simp [Mem.setNext, Mem.setPrev, h1]; omega
  · have hr : (s.set (List.range' m.fresh (n + 1))).ring =
        ring2 s.ring (List.range' m.fresh (n + 1)) [] := by
      funext y; simp [St.set, ring2]
    show Rep _ (s.set (List.range' m.fresh (n + 1))).ring
    rw [hr]
    have hmem : ∀ y, y ∈ List.range' m.fresh (n + 1) ++ [] ↔ m.fresh ≤ y ∧ y < m.fresh + (n + 1) := by
      intro y; rw [List.append_nil, List.mem_range'_1]
    obtain ⟨X, eX⟩ : ∃ X, m.fresh :: List.range' (m.fresh + 1) n = X ++ [p] := by
      rw [List.getLast?_eq_some_iff] at h2; exact h2
    have hnd : (m.fresh :: List.range' (m.fresh + 1) n).Nodup := by
      rw [← List.range'_succ]; exact List.nodup_range'
    refine h.rep.update (m' := (M.setNext p (some m.fresh)).setPrev m.fresh (some p)) ?_ ?_
      (Or.inr (Or.inr ?_)) (Or.inl rfl) ?_ ?_ ?_ ?_
    · show m.fresh ≤ M.fresh; omega
    · rw [List.append_nil]; exact List.nodup_range'
    · rw [List.range'_succ]
      show Lnk _ _ (m.fresh :: (List.range' (m.fresh + 1) n ++ [m.fresh]))
      rw [← List.cons_append, eX, List.append_assoc]
      refine Lnk_last [] ?_ ?_ ?_ trivial
      · rw [← eX]
        refine Lnk_congr _ ?_ ?_ h3
        · intro y hy
          rw [eX, List.dropLast_concat] at hy
          have : y ≠ p := by
            rintro rfl
            rw [eX, List.nodup_append] at hnd
            exact hnd.2.2 y hy y (by simp) rfl
          simp [Mem.setNext, Mem.setPrev, upd, this]
        · intro y hy
          have hy : y ∈ List.range' (m.fresh + 1) n := hy
          rw [List.mem_range'_1] at hy
          have : y ≠ m.fresh := by omega
          simp [Mem.setNext, Mem.setPrev, upd, this]
      · simp [Mem.setNext, Mem.setPrev, upd]
      · simp [Mem.setNext, Mem.setPrev, upd]
    · intro y hy; rw [hmem] at hy; show y < M.fresh; omega
    · intro y hy z hz
      rw [hmem] at hy
      rw [h.rep.un y hy.1] at hz; cases hz
    · intro y hy hy'
      rw [hmem]
      have : y < M.fresh := hy'
      omega
    · intro y hy
      rw [hmem] at hy
      have hyp : y ≠ p := by
        rintro rfl
        apply hy
        have : y ∈ m.fresh :: List.range' (m.fresh + 1) n := by rw [eX]; simp
        rw [← List.range'_succ, List.mem_range'_1] at this
        exact this
      have hyf : y ≠ m.fresh := by omega
      obtain ⟨q1, q2⟩ := h4 y (by omega)
      simp only [Mem.setNext, Mem.setPrev, upd, hyp, hyf, if_false, q1 hyf, q2]
      simp [alloc, upd, hyf]
  · show M.val = _
    rw [h5]
    funext y
    simp only [List.mem_range'_1, alloc, upd]
    rw [h.val]
    by_cases e1 : y = m.fresh
    · subst e1
      simp
    · by_cases e2 : m.fresh + 1 ≤ y ∧ y < m.fresh + 1 + n
      · rw [if_pos e2, if_pos (by omega)]
      · rw [if_neg e2, if_neg e1, if_neg (by omega)]

/-- A zero `Ring`. -/
theorem Sim.zero {m : Mem T} {s : St T} (h : Sim m s) (dflt : T) :
    Sim (alloc dflt m none).1 { s.set [m.fresh] with
      val := fun y => if y = m.fresh then dflt else s.val y } := by
  refine ⟨?_, ?_⟩
  · have hr : (s.set [m.fresh]).ring = ring2 s.ring [m.fresh] [] := by
      funext y; simp [St.set, ring2]
    show Rep _ (s.set [m.fresh]).ring
    rw [hr]
    refine h.rep.update (by simp [alloc]) (by simp) (Or.inr (Or.inl ⟨m.fresh, rfl, by simp [alloc, upd]⟩))
      (Or.inl rfl) ?_ ?_ ?_ ?_
    · intro y hy; simp at hy; subst hy; simp [alloc]
    · intro y hy z hz
      simp at hy; subst hy
      rw [h.rep.un m.fresh (Nat.le_refl _)] at hz; cases hz
    · intro y a b; simp [alloc] at b ⊢; omega
    · intro y hy
      simp at hy
      simp [alloc, upd, hy]
  · funext y
    simp only [alloc, upd, h.val]

/-- Where `Unlink` cuts. -/
theorem unlink_split {r : Nat} {t : List Nat} (hn : (r :: t).Nodup) {n : Int} {x : Nat}
    (hx : at_ (r :: t) (n + 1) = some x) :
    x ∈ r :: t ∧ t.takeWhile (· ≠ x) = t.take (n % (r :: t).length).toNat ∧
      t.dropWhile (· ≠ x) = t.drop (n % (r :: t).length).toNat := by
  have hmem : x ∈ r :: t := List.mem_of_getElem? hx
  refine ⟨hmem, ?_⟩
  have hL : (0 : Int) < ((r :: t).length : Int) := by simp
  have hk0 := Int.emod_nonneg n (Int.ne_of_gt hL)
  have hk1 := Int.emod_lt_of_pos n hL
  have hmod : (n + 1) % ((r :: t).length : Int) = (n % ((r :: t).length : Int) + 1) % ((r :: t).length : Int) := by
    rw [Int.emod_add_emod]
  obtain ⟨k, hk⟩ : ∃ k : Nat, n % ((r :: t).length : Int) = k := ⟨_, (Int.toNat_of_nonneg hk0).symm⟩
  unfold at_ at hx
  rw [hmod, hk] at hx
  rw [hk] at hk1 ⊢
  have hl : (r :: t).length = t.length + 1 := rfl
  rw [hl] at hx hk1
  simp only [Int.toNat_natCast]
  by_cases hlast : k = t.length
  · subst hlast
    have : (((t.length : Int) + 1) % ((t.length + 1 : Nat) : Int)).toNat = 0 := by
      push_cast; simp
    rw [this] at hx
    simp at hx
    subst hx
    obtain ⟨q1, q2⟩ := takeWhile_not_mem (List.nodup_cons.1 hn).1
    rw [q1, q2]; simp
  · have hkt : k < t.length := by omega
    have : (((k : Int) + 1) % ((t.length + 1 : Nat) : Int)).toNat = k + 1 := by
      rw [Int.emod_eq_of_lt (by omega) (by omega)]; omega
    rw [this, List.getElem?_cons_succ, List.getElem?_eq_getElem hkt] at hx
    injection hx with hx
    have e : t = t.take k ++ x :: t.drop (k + 1) := by
      rw [← hx, List.getElem_cons_drop, List.take_append_drop]
    have hnt := (List.nodup_cons.1 hn).2
    have hnm : x ∉ t.take k := by
      rw [e, List.nodup_append] at hnt
      intro hx'
      exact hnt.2.2 x hx' x (by simp) rfl
    obtain ⟨q1, q2⟩ := takeWhile_ne (B := t.drop (k + 1)) hnm
    rw [← e] at q1 q2
    refine ⟨q1, ?_⟩
    rw [q2, ← hx, List.getElem_cons_drop]

/-- `Unlink(n)`, `n > 0`. -/
theorem Sim.unlink {m : Mem T} {s : St T} (h : Sim m s) {r : Nat} (hr : r < m.fresh) {n : Int}
    (hn : 0 < n) : ∃ m', unlink m r n = some (m', at_ (s.ring r) 1) ∧
      Sim m' ((s.set ((s.ring r).tail.take (n % (s.ring r).length).toNat)).set
        (r :: (s.ring r).tail.drop (n % (s.ring r).length).toNat)) := by
  obtain ⟨t, et⟩ := h.rep.head r hr
  obtain ⟨x, hx⟩ : ∃ x, at_ (s.ring r) (n + 1) = some x := by
    obtain ⟨_, _, _, en⟩ := at_some (C := s.ring r) (by rw [et]; simp) (n + 1)
    exact ⟨_, en⟩
  have hnd := h.rep.nodup r
  have hx' := hx
  rw [et] at hx' hnd
  obtain ⟨u1, u2, u3⟩ := unlink_split hnd hx'
  unfold Ring.unlink
  rw [if_neg (by omega), h.move hr]
  simp only [Option.bind_eq_bind, Option.bind_some, hx]
  have hf : (Ring.norm m r).fresh = m.fresh := (h.rep.norm hr).2.2.1
  obtain ⟨m', h1, h2⟩ := (h.norm hr).link (r := r) (x := x) (by rw [hf]; exact hr)
    (by rw [hf]; exact h.rep.alloc r x (by rw [et]; exact u1))
  refine ⟨m', h1, ?_⟩
  have e : s.linked r x = (s.set ((s.ring r).tail.take (n % (s.ring r).length).toNat)).set
        (r :: (s.ring r).tail.drop (n % (s.ring r).length).toNat) := by
    unfold St.linked
    rw [if_pos (by rw [et]; exact u1), et]
    simp only [List.tail_cons]
    rw [u2, u3]
  rw [← e]; exact h2

theorem foldl_len (t : List Nat) (a : Nat) : t.foldl (fun n _ => n + 1) a = a + t.length := by
  induction t generalizing a with
  | nil => rfl
  | cons x t ih => simp [ih]; omega

theorem foldl_vals (f : Nat → T) (t : List Nat) (a : List T) :
    t.foldl (fun acc q => acc ++ [f q]) a = a ++ t.map f := by
  induction t generalizing a with
  | nil => simp
  | cons x t ih => simp [ih]

theorem Sim.cycNorm {m : Mem T} {s : St T} (h : Sim m s) {x : Nat} (hx : x < m.fresh) :
    Cyc (Ring.norm m x).next (Ring.norm m x).prev (s.ring x) := (h.rep.norm hx).2.1

/-- Every call with existing arguments terminates without panic and does what the specification
says. -/
theorem sim_step {m : Mem T} {s : St T} (h : Sim m s) (dflt : T) (op : Op T) (hv : s.Valid op) :
    ∃ r m' s', MStep dflt m op r m' ∧ s.Step dflt op r s' ∧ Sim m' s' := by
  cases op with
  | new n =>
    by_cases hn : n ≤ 0
    · refine ⟨.elem none, m, s, ⟨0, fun _ _ => ?_⟩, ?_, h⟩
      · simp [exec, Ring.new, hn]
      · simp [St.Step, hn]
    · obtain ⟨k, rfl⟩ : ∃ k : Nat, n = (k : Int) + 1 := ⟨n.toNat - 1, by omega⟩
      obtain ⟨m', h1, h2, h3⟩ := h.new dflt k
      refine ⟨.elem (some m.fresh), m', _, ⟨0, fun _ _ => ?_⟩, ?_, h3⟩
      · simp [exec, h1]
      · simp only [St.Step, hn, if_false]
        refine ⟨List.range' m.fresh (k + 1), by simp, List.nodup_range', ?_, ?_, rfl⟩
        · intro x hx
          rw [List.mem_range'_1] at hx
          exact h.rep.un x hx.1
        · rw [List.range'_succ]; rfl
  | zero =>
    exact ⟨_, _, _, ⟨0, fun _ _ => rfl⟩, ⟨m.fresh, h.rep.un _ (Nat.le_refl _), rfl, rfl⟩, h.zero dflt⟩
  | next x =>
    have hx := h.has hv
    refine ⟨.elem (at_ (s.ring x) 1), Ring.norm m x, s, ⟨0, fun _ _ => ?_⟩, ⟨rfl, rfl⟩, h.norm hx⟩
    simp [exec, h.next hx]
  | prev x =>
    have hx := h.has hv
    refine ⟨.elem (at_ (s.ring x) (-1)), Ring.norm m x, s, ⟨0, fun _ _ => ?_⟩, ⟨rfl, rfl⟩, h.norm hx⟩
    simp [exec, h.prev hx]
  | move x n =>
    have hx := h.has hv
    refine ⟨.elem (at_ (s.ring x) n), Ring.norm m x, s, ⟨0, fun _ _ => ?_⟩, ⟨rfl, rfl⟩, h.norm hx⟩
    simp [exec, h.move hx]
  | link x y =>
    cases y with
    | none =>
      have hx := h.has hv
      refine ⟨.elem (at_ (s.ring x) 1), Ring.norm m x, s, ⟨0, fun _ _ => ?_⟩, ⟨rfl, rfl⟩, h.norm hx⟩
      simp [exec, Ring.link, h.next hx]
    | some y =>
      obtain ⟨m', h1, h2⟩ := h.link (h.has hv.1) (h.has hv.2)
      refine ⟨.elem (at_ (s.ring x) 1), m', _, ⟨0, fun _ _ => ?_⟩, ⟨rfl, rfl⟩, h2⟩
      simp [exec, h1]
  | unlink x n =>
    have hx := h.has hv
    by_cases hn : n ≤ 0
    · refine ⟨.elem none, m, s, ⟨0, fun _ _ => ?_⟩, ?_, h⟩
      · simp [exec, Ring.unlink, hn]
      · simp [St.Step, hn]
    · obtain ⟨m', h1, h2⟩ := h.unlink hx (by omega : 0 < n)
      refine ⟨.elem (at_ (s.ring x) 1), m', _, ⟨0, fun _ _ => ?_⟩, ?_, h2⟩
      · simp [exec, h1]
      · simp [St.Step, hn]
  | len x =>
    cases x with
    | none => exact ⟨.int 0, m, s, ⟨0, fun _ _ => rfl⟩, ⟨rfl, rfl⟩, h⟩
    | some x =>
      have hx := h.has hv
      obtain ⟨t, et⟩ := h.rep.head x hx
      refine ⟨.int (s.ring x).length, Ring.norm m x, s, ⟨t.length + 1, fun fuel hf => ?_⟩, ⟨rfl, rfl⟩,
        h.norm hx⟩
      have hc := h.cycNorm hx
      have hnd := h.rep.nodup x
      rw [et] at hc hnd
      simp only [exec, len, h.next hx, et, hc.loop hnd (fun n _ => n + 1) 1 fuel hf, foldl_len,
        Option.bind_eq_bind, Option.bind_some]
      congr 3
      simp; omega
  | do_ x =>
    cases x with
    | none => exact ⟨.vals [], m, s, ⟨0, fun _ _ => rfl⟩, ⟨rfl, rfl⟩, h⟩
    | some x =>
      have hx := h.has hv
      obtain ⟨t, et⟩ := h.rep.head x hx
      refine ⟨.vals ((s.ring x).map s.val), Ring.norm m x, s, ⟨t.length + 1, fun fuel hf => ?_⟩,
        ⟨rfl, rfl⟩, h.norm hx⟩
      have hc := h.cycNorm hx
      have hnd := h.rep.nodup x
      have hval := (h.norm hx).val
      rw [et] at hc hnd
      simp only [exec, do_, h.next hx, et,
        hc.loop hnd (fun acc q => acc ++ [(Ring.norm m x).val q]) _ fuel hf, foldl_vals,
        Option.bind_eq_bind, Option.bind_some]
      rw [hval, h.val]
      simp
  | getValue x =>
    refine ⟨.val (s.val x), m, s, ⟨0, fun _ _ => ?_⟩, ⟨rfl, rfl⟩, h⟩
    simp [exec, h.val]
  | setValue x v =>
    refine ⟨.unit, _, _, ⟨0, fun _ _ => rfl⟩, ⟨rfl, rfl⟩, ?_, ?_⟩
    · exact ⟨h.rep.head, h.rep.un, h.rep.nodup, h.rep.alloc, h.rep.rot, fun y hy => h.rep.ok y hy⟩
    · funext y; simp [upd, h.val]

end Verif.Ring
