import Verif.RWMap.Visit
import Verif.RWMap.Corollaries
/-!
# Everything a user of `RWMap` can rely on, in one linearization
-/
namespace Verif.RWMap
variable {K V : Type} [DecidableEq K]
variable {eqv : V → V → Option Bool} {prog : Nat → Op K V}

def Ev.call : Ev K V → Nat
  | .inv i | .visit i _ _ | .ret i _ => i

/-- One linearization for all calls, with what the calls of Range do. -/
structure Whole (eqv : V → V → Option Bool) (prog : Nat → Op K V) (L : List (LEv K V)) : Prop where
  lin : Linearizes eqv prog L (L.filterMap LEv.ev?)
  vis : VisitOk eqv prog L
  rng : ∀ i r, prog i = .range → .ret i r ∈ L → RangeOk eqv prog L i r
  once : ∀ L1 n L2, L = L1 ++ .inv n :: L2 → .inv n ∉ L1
  last : ∀ L1 n r L2, L = L1 ++ .ret n r :: L2 → (∀ r', .ret n r' ∉ L2) ∧ ∀ k v, .visit n k v ∉ L2
  nodup : ∀ n, ((visitsOf n (L.filterMap LEv.ev?)).map Prod.fst).Nodup
  pairs : ∀ n es b, .ret n (.visited es b) ∈ L → visitsOf n (L.filterMap LEv.ev?) = es

variable [Inhabited V]

theorem mem_event_call {s : State K V} {i : Nat} {e : Ev K V} (h : e ∈ event prog s i) : e.call = i := by
  rcases event_cases (prog := prog) s i with ⟨h1, h2⟩ | ⟨r, h1, h2⟩ | ⟨k, e, es, acc, v, h1, h2, h3⟩ | h2 <;> simp_all [Ev.call]

/-- A call that has returned does nothing more. -/
theorem exec_last {h : List (Ev K V)} {s : State K V} (hx : Exec eqv prog h s) :
    ∀ a n r b, h = a ++ .ret n r :: b → ∀ e ∈ b, e.call ≠ n := by
  induction hx with
  | init => intro a n r b h; simp at h
  | @step h s evs s' hx hs ih =>
    intro a n r b he x hxb
    have B := exec_book hx
    obtain ⟨j, ord, go, _, hn, rfl⟩ := hs
    have hdone : ∀ a b, h = a ++ .ret n r :: b → j ≠ n := by
      rintro a b rfl rfl
      rw [next, (B.ret j r).1 (by simp)] at hn
      cases hn
    rcases List.append_eq_append_iff.1 he with ⟨as, h1, h2⟩ | ⟨bs, h1, h2⟩
    · -- the return is new
      have : (event prog s j).length ≤ 1 := by
        rcases event_cases (prog := prog) s j with ⟨_, h⟩ | ⟨_, _, h⟩ | ⟨_, _, _, _, _, _, _, h⟩ | h <;> rw [h] <;> simp
      rw [h2] at this
      simp at this
      obtain ⟨rfl, rfl⟩ : as = [] ∧ b = [] := by
        constructor <;> apply List.eq_nil_of_length_eq_zero <;> omega
      cases hxb
    · cases bs with
      | nil =>
        have : (event prog s j).length ≤ 1 := by
          rcases event_cases (prog := prog) s j with ⟨_, h⟩ | ⟨_, _, h⟩ | ⟨_, _, _, _, _, _, _, h⟩ | h <;> rw [h] <;> simp
        simp at h2
        rw [← h2] at this
        simp at this
        subst this
        cases hxb
      | cons y bs =>
        simp at h2
        obtain ⟨rfl, rfl⟩ := h2
        rw [List.mem_append] at hxb
        rcases hxb with hxb | hxb
        · exact ih a n r bs h1 x hxb
        · rw [mem_event_call hxb]
          exact hdone a bs h1

theorem exec_whole {h : List (Ev K V)} {s : State K V} (hx : Exec eqv prog h s) :
    ∃ L : List (LEv K V), L.filterMap LEv.ev? = h ∧ Whole eqv prog L := by
  obtain ⟨g, I, hg⟩ := exec_inv hx
  have hL : (levs g.L).filterMap LEv.ev? = h := by rw [levs_ev, hg]
  have hmem : ∀ {L : List (LEv K V)} {x : LEv K V} {e : Ev K V}, x ∈ L → x.ev? = some e → e ∈ L.filterMap LEv.ev? :=
    fun h1 h2 => List.mem_filterMap.2 ⟨_, h1, h2⟩
  refine ⟨levs g.L, hL, ?_, I.visit_ok, fun i r hop hr => I.range_ok hop (ret_mem_levs.1 hr), ?_, ?_, ?_, ?_⟩
  · rw [levs_ev]; exact I.linearizes
  · intro L1 n L2 h1 hn
    rw [h1, List.filterMap_append, List.filterMap_cons] at hL
    exact (exec_once hx _ n _ hL.symm).1 (hmem hn rfl)
  · intro L1 n r L2 h1
    rw [h1, List.filterMap_append, List.filterMap_cons] at hL
    have := exec_last hx _ n r _ hL.symm
    exact ⟨fun r' hr' => this _ (hmem hr' rfl) rfl, fun k v hv => this _ (hmem hv rfl) rfl⟩
  · intro n; rw [hL]; exact exec_visits_nodup hx n
  · intro n es b hr
    rw [hL]
    refine exec_visits_ret hx (b := b) ?_
    rw [← hL]
    exact hmem hr rfl
end Verif.RWMap
