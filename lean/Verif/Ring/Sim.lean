import Verif.Ring.Inv
/-!
# `ring`: every call does what the specification says
-/
namespace Verif.Ring
open Verif.Ring.Spec
variable {T : Type}

/-- The four assignments of `Link`. -/
def relink (m : Mem T) (r s n p : Nat) : Mem T :=
  (((m.setNext r (some s)).setPrev s (some r)).setPrev n (some p)).setNext p (some n)

theorem at_one {r : Nat} {t : List Nat} : at_ (r :: t) 1 = (t ++ [r]).head? := by
  cases t with
  | nil => simp [at_]
  | cons a t =>
    have : ((1 : Int) % ((r :: a :: t).length : Int)).toNat = 1 := by
      rw [Int.emod_eq_of_lt (by omega) (by simp; omega)]; rfl
    unfold at_
    rw [this]
    simp

theorem Lnk_last {nx pv : Nat → Option Nat} {X : List Nat} {a b : Nat} (Y : List Nat)
    (h1 : Lnk nx pv (X ++ [a])) (h2 : nx a = some b) (h3 : pv b = some a) (h4 : Lnk nx pv (b :: Y)) :
    Lnk nx pv (X ++ a :: b :: Y) := (Lnk_split nx pv X a b Y).2 ⟨h1, h2, h3, h4⟩

/-- Different rings: one ring. -/
theorem relink_join {m : Mem T} {r s n p : Nat} {A B : List Nat}
    (hr : Cyc m.next m.prev (r :: A)) (hs : Cyc m.next m.prev (s :: B))
    (hnd : (r :: (s :: B ++ A)).Nodup)
    (hn : m.next r = some n) (hp : m.prev s = some p) :
    Cyc (relink m r s n p).next (relink m r s n p).prev (r :: (s :: B ++ A)) := by
  obtain ⟨n', A', eA⟩ : ∃ n' A', A ++ [r] = n' :: A' := by cases A <;> simp
  obtain ⟨B', p', eB⟩ : ∃ B' p', s :: B = B' ++ [p'] := by
    rcases List.eq_nil_or_concat (s :: B) with h | ⟨B', p', h⟩
    · cases h
    · exact ⟨B', p', by simpa using h⟩
  have hr' : Lnk m.next m.prev (r :: n' :: A') := by rw [← eA]; exact hr
  have hs' : Lnk m.next m.prev (B' ++ p' :: [s]) := by
    have : B' ++ p' :: [s] = s :: (B ++ [s]) := by
      rw [← List.cons_append, eB]; simp
    rw [this]; exact hs
  have en : n' = n := by have := hr'.1; rw [hn] at this; injection this with this; exact this.symm
  rw [Lnk_split] at hs'
  have ep : p' = p := by
    have := hs'.2.2.1; rw [hp] at this; injection this with this; exact this.symm
  subst en; subst ep
  have hpm : p' ∈ s :: B := by rw [eB]; simp
  have hnm : n' ∈ A ++ [r] := by rw [eA]; simp
  have hd : ∀ x ∈ s :: B, x ∉ A ∧ x ≠ r := by
    intro x hx
    rw [List.nodup_cons, List.mem_append, not_or, List.nodup_append] at hnd
    exact ⟨fun h => hnd.2.2.2 x hx x h rfl, fun e => hnd.1.1 (e ▸ hx)⟩
  have hndB : (s :: B).Nodup := by
    rw [List.nodup_cons, List.nodup_append] at hnd; exact hnd.2.1
  have hndA : (A ++ [r]).Nodup := by
    rw [List.nodup_cons, List.mem_append, not_or, List.nodup_append] at hnd
    rw [List.nodup_append]
    exact ⟨hnd.2.2.1, by simp, fun x hx y hy e => by
      simp at hy; subst hy; subst e; exact hnd.1.2 hx⟩
  have hrB : r ∉ s :: B := fun h => (hd r h).2 rfl
  have e : (relink m r s n' p').next = upd (upd m.next r (some s)) p' (some n') := rfl
  have e' : (relink m r s n' p').prev = upd (upd m.prev s (some r)) n' (some p') := rfl
  have hns : n' ≠ s := by
    rintro rfl
    have := hd n' (by simp)
    rcases List.mem_append.1 hnm with h | h
    · exact this.1 h
    · simp at h; exact this.2 h
  have hpr : p' ≠ r := (hd p' hpm).2
  show Lnk _ _ (r :: (s :: B ++ A ++ [r]))
  have e3 : r :: (s :: B ++ A ++ [r]) = r :: (B' ++ p' :: n' :: A') := by
    rw [List.append_assoc, eA, eB]; simp
  rw [e3]
  have hl1 : Lnk (relink m r s n' p').next (relink m r s n' p').prev (B' ++ p' :: n' :: A') := by
    refine Lnk_last A' ?_ ?_ ?_ ?_
    · refine Lnk_congr _ ?_ ?_ hs'.1
      · intro x hx
        rw [List.dropLast_concat] at hx
        have hxB : x ∈ s :: B := by rw [eB]; simp [hx]
        have h1 : x ≠ p' := by
          rintro rfl
          rw [eB, List.nodup_append] at hndB
          exact hndB.2.2 x hx x (by simp) rfl
        rw [e]; simp [upd, h1, (hd x hxB).2]
      · intro x hx
        have hx' : x ∈ B := by rw [← eB] at hx; exact hx
        have hxB : x ∈ s :: B := by simp [hx']
        have h1 : x ≠ s := by rintro rfl; exact (List.nodup_cons.1 hndB).1 hx'
        have h2 : x ≠ n' := by
          rintro rfl
          rcases List.mem_append.1 hnm with h | h
          · exact (hd x hxB).1 h
          · simp at h; exact (hd x hxB).2 h
        rw [e']; simp [upd, h1, h2]
    · rw [e]; simp [upd]
    · rw [e']; simp [upd]
    · refine Lnk_congr _ ?_ ?_ hr'.2.2
      · intro x hx
        rw [← eA, List.dropLast_concat] at hx
        have h1 : x ≠ p' := by rintro rfl; exact (hd x hpm).1 hx
        have h2 : x ≠ r := by
          rintro rfl
          rw [List.nodup_append] at hndA
          exact hndA.2.2 x hx x (by simp) rfl
        rw [e]; simp [upd, h1, h2]
      · intro x hx
        have hxA : x ∈ A ++ [r] := by rw [eA]; simp at hx; simp [hx]
        have h1 : x ≠ n' := by
          rintro rfl
          rw [eA, List.nodup_cons] at hndA
          exact hndA.1 hx
        have h2 : x ≠ s := by
          rintro rfl
          have := hd x (by simp)
          rcases List.mem_append.1 hxA with h | h
          · exact this.1 h
          · simp at h; exact this.2 h
        rw [e']; simp [upd, h1, h2]
  have hhead : ∃ B'', B' ++ p' :: n' :: A' = s :: B'' := by
    have : B' ++ p' :: n' :: A' = (B' ++ [p']) ++ n' :: A' := by simp
    rw [this, ← eB]; exact ⟨_, rfl⟩
  obtain ⟨B'', eB''⟩ := hhead
  rw [eB''] at hl1 ⊢
  refine ⟨?_, ?_, hl1⟩
  · rw [e]; simp [upd, Ne.symm hpr]
  · rw [e']; simp [upd, Ne.symm hns]

/-- Same ring, elements between: two rings. -/
theorem relink_cut {m : Mem T} {r s n p : Nat} {A R : List Nat}
    (hr : Cyc m.next m.prev (r :: (A ++ R))) (hs : (R ++ [r]).head? = some s)
    (hnd : (r :: (A ++ R)).Nodup) (hA : A ≠ [])
    (hn : m.next r = some n) (hp : m.prev s = some p) :
    Cyc (relink m r s n p).next (relink m r s n p).prev A ∧
    Cyc (relink m r s n p).next (relink m r s n p).prev (r :: R) := by
  obtain ⟨n', A1, eA⟩ : ∃ n' A', A = n' :: A' := by cases A <;> simp_all
  obtain ⟨A2, p', eA'⟩ : ∃ B' p', A = B' ++ [p'] := by
    rcases List.eq_nil_or_concat A with h | ⟨B', p', h⟩
    · exact absurd h hA
    · exact ⟨B', p', by simpa using h⟩
  obtain ⟨R', eR⟩ : ∃ R', R ++ [r] = s :: R' := by cases R <;> simp_all
  have hl : Lnk m.next m.prev (r :: (A ++ (R ++ [r]))) := by
    have := hr; simp only [Cyc, List.append_assoc] at this; exact this
  have hl1 : m.next r = some n' ∧ m.prev n' = some r ∧ Lnk m.next m.prev (A ++ (R ++ [r])) := by
    rw [eA] at hl ⊢; exact hl
  have en : n' = n := by have := hl1.1; rw [hn] at this; injection this with this; exact this.symm
  have hl2 : Lnk m.next m.prev (A2 ++ p' :: s :: R') := by
    have := hl1.2.2
    rw [eR, eA'] at this
    simpa using this
  rw [Lnk_split] at hl2
  obtain ⟨k1, k2, k3, k4⟩ := hl2
  have ep : p' = p := by rw [hp] at k3; injection k3 with k3; exact k3.symm
  subst en; subst ep
  have e : (relink m r s n' p').next = upd (upd m.next r (some s)) p' (some n') := rfl
  have e' : (relink m r s n' p').prev = upd (upd m.prev s (some r)) n' (some p') := rfl
  have hnA : n' ∈ A := by rw [eA]; simp
  have hpA : p' ∈ A := by rw [eA']; simp
  have hd : ∀ x ∈ A, x ∉ R ∧ x ≠ r := by
    intro x hx
    rw [List.nodup_cons, List.mem_append, not_or, List.nodup_append] at hnd
    exact ⟨fun h => hnd.2.2.2 x hx x h rfl, fun e => hnd.1.1 (e ▸ hx)⟩
  have hndA : A.Nodup := by rw [List.nodup_cons, List.nodup_append] at hnd; exact hnd.2.1
  have hndR : (R ++ [r]).Nodup := by
    rw [List.nodup_cons, List.mem_append, not_or, List.nodup_append] at hnd
    rw [List.nodup_append]
    exact ⟨hnd.2.2.1, by simp, fun x hx y hy exy => by
      simp at hy; rw [hy] at exy; rw [exy] at hx; exact hnd.1.2 hx⟩
  have hsR : s ∈ R ++ [r] := by rw [eR]; simp
  have hsA : s ∉ A := by
    intro h
    rcases List.mem_append.1 hsR with h' | h'
    · exact (hd s h).1 h'
    · simp at h'; exact (hd s h).2 h'
  have hpr : p' ≠ r := (hd p' hpA).2
  constructor
  · rw [eA]
    show Lnk _ _ (n' :: (A1 ++ [n']))
    have : n' :: (A1 ++ [n']) = A2 ++ p' :: [n'] := by
      rw [← List.cons_append, ← eA, eA']; simp
    rw [this]
    refine Lnk_last [] ?_ ?_ ?_ trivial
    · refine Lnk_congr _ ?_ ?_ k1
      · intro x hx
        rw [List.dropLast_concat] at hx
        have hxA : x ∈ A := by rw [eA']; simp [hx]
        have h1 : x ≠ p' := by
          rintro rfl
          rw [eA', List.nodup_append] at hndA
          exact hndA.2.2 x hx x (by simp) rfl
        rw [e]; simp [upd, h1, (hd x hxA).2]
      · intro x hx
        rw [← eA', eA] at hx
        have hx : x ∈ A1 := hx
        have hxA : x ∈ A := by rw [eA]; simp [hx]
        have h1 : x ≠ n' := by
          rintro rfl
          rw [eA, List.nodup_cons] at hndA
          exact hndA.1 hx
        have h2 : x ≠ s := by rintro rfl; exact hsA hxA
        rw [e']; simp [upd, h1, h2]
    · rw [e]; simp [upd]
    · rw [e']; simp [upd]
  · show Lnk _ _ (r :: (R ++ [r]))
    rw [eR]
    refine ⟨?_, ?_, ?_⟩
    · rw [e]; simp [upd, Ne.symm hpr]
    · have : s ≠ n' := by rintro rfl; exact hsA hnA
      rw [e']; simp [upd, this]
    · refine Lnk_congr _ ?_ ?_ k4
      · intro x hx
        rw [← eR, List.dropLast_concat] at hx
        have h1 : x ≠ p' := by rintro rfl; exact (hd x hpA).1 hx
        have h2 : x ≠ r := by
          rintro rfl
          rw [List.nodup_append] at hndR
          exact hndR.2.2 x hx x (by simp) rfl
        rw [e]; simp [upd, h1, h2]
      · intro x hx
        have hx : x ∈ R' := hx
        have h1 : x ≠ s := by
          rintro rfl
          rw [eR, List.nodup_cons] at hndR
          exact hndR.1 hx
        have hxR : x ∈ R ++ [r] := by rw [eR]; simp [hx]
        have h2 : x ≠ n' := by
          rintro rfl
          rcases List.mem_append.1 hxR with h' | h'
          · exact (hd x hnA).1 h'
          · simp at h'; exact (hd x hnA).2 h'
        rw [e']; simp [upd, h1, h2]

/-- Same ring, nothing between: no change. -/
theorem relink_nop {m : Mem T} {r s : Nat} (hn : m.next r = some s) (hp : m.prev s = some r) :
    (relink m r s s r).next = m.next ∧ (relink m r s s r).prev = m.prev := by
  constructor
  · funext x; simp only [relink, Mem.setNext, Mem.setPrev, upd]
    by_cases h : x = r
    · subst h; simp [hn]
    · simp [h]
  · funext x; simp only [relink, Mem.setNext, Mem.setPrev, upd]
    by_cases h : x = s
    · subst h; simp [hp]
    · simp [h]

/-- The model state represents the abstract state. -/
structure Sim (m : Mem T) (s : St T) : Prop where
  rep : Rep m s.ring
  val : m.val = s.val

theorem Sim.has {m : Mem T} {s : St T} (h : Sim m s) {x : Nat} (hx : s.Has x) : x < m.fresh :=
  h.rep.lt hx

theorem Sim.norm {m : Mem T} {s : St T} (h : Sim m s) {x : Nat} (hx : x < m.fresh) :
    Sim (norm m x) s :=
  ⟨(h.rep.norm hx).1, by rw [(h.rep.norm hx).2.2.2.1]; exact h.val⟩

theorem Rep.cyc_of_next {m : Mem T} {ring : Nat → List Nat} (h : Rep m ring) {x : Nat}
    (hx : x < m.fresh) (hn : m.next x ≠ none) : Cyc m.next m.prev (ring x) := by
  have := (h.norm hx).2.1
  simpa [Ring.norm, hn] using this

theorem Sim.next {m : Mem T} {s : St T} (h : Sim m s) {x : Nat} (hx : x < m.fresh) :
    next m x = (Ring.norm m x, at_ (s.ring x) 1) := by
  rw [next_eq]
  obtain ⟨h1, h2, h3, h4, h5⟩ := h.rep.norm hx
  obtain ⟨t, e⟩ := h.rep.head x hx
  rw [e] at h2 ⊢
  rw [h2.next_at 0 at_zero]; rfl

theorem Sim.prev {m : Mem T} {s : St T} (h : Sim m s) {x : Nat} (hx : x < m.fresh) :
    prev m x = (Ring.norm m x, at_ (s.ring x) (-1)) := by
  rw [prev_eq]
  obtain ⟨h1, h2, h3, h4, h5⟩ := h.rep.norm hx
  obtain ⟨t, e⟩ := h.rep.head x hx
  rw [e] at h2 ⊢
  rw [h2.prev_at 0 at_zero]; rfl

theorem Sim.move {m : Mem T} {s : St T} (h : Sim m s) {x : Nat} (hx : x < m.fresh) (n : Int) :
    move m x n = some (Ring.norm m x, at_ (s.ring x) n) := by
  obtain ⟨h1, h2, h3, h4, h5⟩ := h.rep.norm hx
  obtain ⟨t, e⟩ := h.rep.head x hx
  unfold Ring.move
  split
  · next hz =>
    have hring : s.ring x = [x] := by
      rcases h.rep.ok x hx with ⟨y, k1, k2⟩ | hc
      · rw [e] at k1
        simp only [List.cons.injEq] at k1
        rw [e, k1.2]
      · rw [e] at hc
        have := hc.next_at 0 at_zero
        rw [hz] at this
        obtain ⟨_, _, _, k2⟩ := at_some (C := x :: t) (by simp) (0 + 1)
        rw [k2] at this; cases this
    rw [hring]
    simp [Ring.norm, hz, at_, Int.emod_one]
  · next hz =>
    have e2 : Ring.norm m x = m := by simp [Ring.norm, hz]
    rw [e2] at h2 ⊢
    rw [e] at h2 ⊢
    split
    · next hn =>
      have := h2.walk_prev n.natAbs 0
      rw [at_zero] at this
      rw [this]
      simp only [Option.bind_eq_bind, Option.bind_some]
      congr 3
      omega
    · next hn =>
      have := h2.walk_next n.natAbs 0
      rw [at_zero] at this
      rw [this]
      simp only [Option.bind_eq_bind, Option.bind_some]
      congr 3
      omega

/-- `Link` with a ring. -/
theorem Sim.link {m : Mem T} {s : St T} (h : Sim m s) {r x : Nat} (hr : r < m.fresh)
    (hx : x < m.fresh) : ∃ m', link m r (some x) = some (m', at_ (s.ring r) 1) ∧
      Sim m' (s.linked r x) := by
  have hs1 := h.norm hr
  have hf1 : (Ring.norm m r).fresh = m.fresh := (h.rep.norm hr).2.2.1
  have hs2 := hs1.norm (x := x) (by rw [hf1]; exact hx)
  have hc1 := (h.rep.norm hr).2.1
  obtain ⟨h1, hcx, hf2, hv2, hnx⟩ := hs1.rep.norm (r := x) (by rw [hf1]; exact hx)
  have hcr : Cyc (Ring.norm (Ring.norm m r) x).next (Ring.norm (Ring.norm m r) x).prev (s.ring r) := by
    refine hs2.rep.cyc_of_next (by rw [hf2, hf1]; exact hr) ?_
    by_cases e : x = r
    · subst e; exact hnx
    · have := (h.rep.norm hr).2.2.2.2
      generalize Ring.norm m r = M at this
      unfold Ring.norm
      split
      · simpa [init, Mem.setNext, Mem.setPrev, upd, Ne.symm e] using this
      · exact this
  have hn := h.next hr
  have hp := hs1.prev (x := x) (by rw [hf1]; exact hx)
  have hf : (Ring.norm (Ring.norm m r) x).fresh = m.fresh := by rw [hf2, hf1]
  have hv : (Ring.norm (Ring.norm m r) x).val = s.val := hs2.val
  have hrep := hs2.rep
  unfold Ring.link
  rw [hn]
  simp only [hp]
  generalize Ring.norm (Ring.norm m r) x = M at *
  obtain ⟨t, et⟩ := hrep.head r (by rw [hf]; exact hr)
  obtain ⟨u, eu⟩ := hrep.head x (by rw [hf]; exact hx)
  obtain ⟨n, en⟩ : ∃ n, at_ (s.ring r) 1 = some n := by
    obtain ⟨_, _, _, en⟩ := at_some (C := s.ring r) (by rw [et]; simp) 1
    exact ⟨_, en⟩
  obtain ⟨p, ep⟩ : ∃ p, at_ (s.ring x) (-1) = some p := by
    obtain ⟨_, _, _, ep⟩ := at_some (C := s.ring x) (by rw [eu]; simp) (-1)
    exact ⟨_, ep⟩
  rw [en, ep]
  simp only [Option.bind_eq_bind, Option.bind_some]
  have hMn : M.next r = some n := by
    rw [← en]; rw [et] at hcr ⊢; exact hcr.next_at 0 at_zero
  have hMp : M.prev x = some p := by
    rw [← ep]; rw [eu] at hcx ⊢; exact hcx.prev_at 0 at_zero
  refine ⟨relink M r x n p, rfl, ?_⟩
  have hring : (s.linked r x).val = s.val := by
    unfold St.linked; split <;> rfl
  refine ⟨?_, by rw [hring]; exact hv⟩
  have hfr : (relink M r x n p).fresh = M.fresh := rfl
  -- the elements touched
  have htouch : ∀ y, y ≠ r → y ≠ p → y ≠ x → y ≠ n →
      (relink M r x n p).next y = M.next y ∧ (relink M r x n p).prev y = M.prev y := by
    intro y a b c d
    simp [relink, Mem.setNext, Mem.setPrev, upd, a, b, c, d]
  have hnr : n ∈ s.ring r := by
    have := List.mem_of_getElem? en; exact this
  have hpx : p ∈ s.ring x := by
    have := List.mem_of_getElem? ep; exact this
  by_cases hxr : x ∈ s.ring r
  · have hlink : (s.linked r x).ring = ring2 s.ring (r :: t.dropWhile (· ≠ x)) (t.takeWhile (· ≠ x)) := by
      unfold St.linked
      rw [if_pos hxr, et]
      rfl
    rw [hlink]
    have hnd := hrep.nodup r
    rw [et] at hnd
    have hsplit : t.takeWhile (· ≠ x) ++ t.dropWhile (· ≠ x) = t := List.takeWhile_append_dropWhile
    have hhead : (t.dropWhile (· ≠ x) ++ [r]).head? = some x := by
      rw [et] at hxr
      rcases List.mem_cons.1 hxr with rfl | hxt
      · rw [(takeWhile_not_mem (List.nodup_cons.1 hnd).1).2]; rfl
      · obtain ⟨A, B, rfl, hxA, _⟩ := split_of_mem (List.nodup_cons.1 hnd).2 hxt
        rw [(takeWhile_ne hxA).2]; rfl
    generalize t.takeWhile (· ≠ x) = A at *
    generalize t.dropWhile (· ≠ x) = R at *
    subst hsplit
    rw [et] at hcr hnr
    have hmemp : ∀ y, y ∈ (r :: R) ++ A ↔ y ∈ s.ring r := by
      intro y; rw [et]; simp only [List.mem_append, List.mem_cons]; tauto
    have hnd2 : ((r :: R) ++ A).Nodup := by
      have : ((r :: R) ++ A).Perm (r :: (A ++ R)) := by
        simpa using (List.perm_append_comm (l₁ := R) (l₂ := A)).cons r
      exact this.nodup_iff.2 hnd
    have hcommon : ∀ y, y ∈ (r :: R) ++ A → ∀ z ∈ s.ring y, z ∈ (r :: R) ++ A := by
      intro y hy z hz
      rw [hmemp] at hy ⊢
      exact (hrep.mem_iff hy z).1 hz
    have hp' : p ∈ s.ring r := (hrep.mem_iff hxr p).1 hpx
    have hframe : ∀ y, y ∉ (r :: R) ++ A →
        (relink M r x n p).next y = M.next y ∧ (relink M r x n p).prev y = M.prev y := by
      intro y hy
      rw [hmemp] at hy
      refine htouch y ?_ ?_ ?_ ?_
      · rintro rfl; exact hy (by rw [et]; simp)
      · rintro rfl; exact hy hp'
      · rintro rfl; exact hy hxr
      · rintro rfl; rw [et] at hy; exact hy hnr
    have hlt : ∀ y ∈ (r :: R) ++ A, y < (relink M r x n p).fresh := by
      intro y hy; rw [hmemp] at hy; exact hrep.alloc r y hy
    by_cases hA : A = []
    · subst hA
      have e1 : n = x := by
        have h1 : Cyc M.next M.prev (r :: R) := by simpa using hcr
        have h2 := h1.next_at 0 at_zero
        rw [hMn] at h2
        have h3 : at_ (r :: R) (0 + 1) = some x := by
          have := at_one (r := r) (t := R); rw [hhead] at this; exact this
        rw [h3] at h2; injection h2
      have e2 : p = r := by
        have h1 : Cyc M.next M.prev (r :: R) := by simpa using hcr
        have h3 : at_ (r :: R) 1 = some x := by
          have := at_one (r := r) (t := R); rw [hhead] at this; exact this
        have h2 := h1.prev_at 1 h3
        rw [hMp] at h2
        have h4 : at_ (r :: R) (1 - 1) = some r := at_zero
        rw [h4] at h2; injection h2
      subst e1; subst e2
      obtain ⟨q1, q2⟩ := relink_nop hMn hMp
      refine hrep.update (Nat.le_refl _) hnd2 (Or.inr (Or.inr ?_)) (Or.inl rfl) hlt hcommon
        (fun y a b => by rw [hfr] at b; omega) hframe
      rw [q1, q2]; simpa using hcr
    · obtain ⟨q1, q2⟩ := relink_cut hcr hhead hnd hA hMn hMp
      exact hrep.update (Nat.le_refl _) hnd2 (Or.inr (Or.inr q2)) (Or.inr (Or.inr q1)) hlt hcommon
        (fun y a b => by rw [hfr] at b; omega) hframe
  · have hlink : (s.linked r x).ring = ring2 s.ring (r :: (s.ring x ++ t)) [] := by
      unfold St.linked
      rw [if_neg hxr, et]
      funext y
      simp [ring2, St.set]
    rw [hlink, eu]
    rw [et] at hcr
    rw [eu] at hcx
    have hdisj : ∀ y ∈ s.ring x, y ∉ s.ring r := by
      intro y hy hy'
      exact hxr ((hrep.mem_iff hy' x).1 ((hrep.mem_iff hy x).2 (hrep.self_mem (by rw [hf]; exact hx))))
    have hnd : (r :: (x :: u ++ t)).Nodup := by
      have n1 := hrep.nodup r
      have n2 := hrep.nodup x
      rw [et, List.nodup_cons] at n1
      rw [eu] at n2 hdisj
      rw [et] at hdisj
      rw [List.nodup_cons, List.nodup_append, List.mem_append, not_or]
      refine ⟨⟨fun h => hdisj r h (by simp), n1.1⟩, n2, n1.2, fun a ha b hb e => ?_⟩
      subst e
      exact hdisj a ha (by simp [hb])
    have hmemp : ∀ y, y ∈ (r :: (x :: u ++ t)) ++ [] ↔ y ∈ s.ring r ∨ y ∈ s.ring x := by
      intro y; rw [et, eu]; simp only [List.mem_append, List.mem_cons, List.append_nil]; tauto
    have hj := relink_join hcr hcx hnd hMn hMp
    refine hrep.update (Nat.le_refl _) (by simpa using hnd) (Or.inr (Or.inr hj)) (Or.inl rfl) ?_ ?_
      (fun y a b => by rw [hfr] at b; omega) ?_
    · intro y hy
      rw [hmemp] at hy
      rcases hy with hy | hy
      · exact hrep.alloc r y hy
      · exact hrep.alloc x y hy
    · intro y hy z hz
      rw [hmemp] at hy ⊢
      rcases hy with hy | hy
      · exact Or.inl ((hrep.mem_iff hy z).1 hz)
      · exact Or.inr ((hrep.mem_iff hy z).1 hz)
    · intro y hy
      rw [hmemp, not_or] at hy
      refine htouch y ?_ ?_ ?_ ?_
      · rintro rfl; exact hy.1 (by rw [et]; simp)
      · rintro rfl; exact hy.2 hpx
      · rintro rfl; exact hy.2 (by rw [eu]; simp)
      · rintro rfl; exact hy.1 hnr

end Verif.Ring
