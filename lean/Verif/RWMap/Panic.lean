import Verif.RWMap.Window
/-!
# Values that cannot be compared (C125)

`CompareAndSwap` and `CompareAndDelete` compare by `reflect.Value.Equal`, which panics if the values are functions, maps or
slices.  `CompareAndSwap` may compare while it holds the mutex.
-/
namespace Verif.RWMap
variable {K V : Type} [DecidableEq K] [Inhabited V]
variable {eqv : V → V → Option Bool} {prog : Nat → Op K V} {h : List (Ev K V)} {s : State K V}

/-- The call compares what the map has for `k` with `old`. -/
def Op.Compares (op : Op K V) (k : K) (old : V) : Prop :=
  (∃ new, op = .compareAndSwap k old new) ∨ op = .compareAndDelete k old

theorem len_ret (hx : Exec eqv prog h s) {i : Nat} (hop : prog i = .len) {r : Res K V} (hr : .ret i r ∈ h) : ∃ v, r = .int v := by
  have key : ∀ {h : List (Ev K V)} {s : State K V}, Exec eqv prog h s → ∀ r, (s.pc i = .fin r ∨ .ret i r ∈ h) → ∃ v, r = .int v := by
    intro h s hx
    induction hx with
    | init => intro r hr; rcases hr with hr | hr <;> cases hr
    | @step h s evs s' hx hs ih =>
      obtain ⟨j, ord, go, hord, hn, rfl⟩ := hs
      intro r hr
      by_cases hij : i = j
      · subst hij
        rcases exec_len_pc hx hop with hc | hc | ⟨r', hc⟩ | ⟨r', hc⟩ <;>
          simp only [next, hc, hop, startStep, reduceCtorEq, Option.some.injEq] at hn <;> subst hn <;> simp [event, hc] at hr
        · exact ih r (.inr hr)
        · rcases hr with rfl | hr
          · exact ⟨_, rfl⟩
          · exact ih r (.inr hr)
        · rcases hr with hr | rfl
          · exact ih r (.inr hr)
          · exact ih _ (.inl hc)
      · rw [next_other hn hij] at hr
        refine ih r (hr.imp id fun hr => ?_)
        rcases List.mem_append.1 hr with hr | hr
        · exact hr
        · exfalso
          unfold event at hr
          repeat' split at hr
          all_goals simp at hr
          exact hij hr.1
  exact key hx r (.inr hr)

/-- C125: all calls can be given instants at which they take effect, such that a call panics exactly if it compares, at that instant, with
a value with which it cannot compare; and it has no effect. -/
theorem rwmap_incomparable (hx : Exec eqv prog h s) : ∃ L, Linearizes eqv prog L h ∧
    ∀ i r, .ret i r ∈ h → (r = .panicked ↔ ∃ M M' k old w, L = M ++ .eff i :: M' ∧ (prog i).Compares k old ∧
      effects eqv prog M AMap.empty k = some w ∧ eqv w old = none) ∧
      (r = .panicked → ∀ M M', L = M ++ .eff i :: M' → effects eqv prog (M ++ [.eff i]) AMap.empty = effects eqv prog M AMap.empty) := by
  obtain ⟨L, hL, _, hR⟩ := rwmap_range hx
  refine ⟨L, hL, fun i r hr => ?_⟩
  cases hm : (prog i).isMap with
  | false =>
    have hne : r ≠ .panicked := by
      rintro rfl
      cases hop : prog i <;> rw [hop] at hm <;> try cases hm
      · obtain ⟨es, stop, h1, _⟩ := hR i _ hop hr; cases h1
      · obtain ⟨v, h1⟩ := len_ret hx hop hr; cases h1
    refine ⟨⟨fun h => absurd h hne, ?_⟩, fun h => absurd h hne⟩
    rintro ⟨M, M', k, old, w, _, hc, _⟩
    rcases hc with ⟨new, hc⟩ | hc <;> rw [hc] at hm <;> cases hm
  | true =>
    obtain ⟨M, M', hM, hres⟩ := ret_eff hL hm hr
    have huniq : ∀ N N', L = N ++ .eff i :: N' → N = M := by
      intro N N' hN
      obtain ⟨_, hn1, hn2⟩ := eff_once hL hm hN
      obtain ⟨_, hm1, hm2⟩ := eff_once hL hm hM
      rw [hM] at hN
      rcases List.append_eq_append_iff.1 hN with ⟨a, ha, hb⟩ | ⟨a, ha, hb⟩
      · cases a with
        | nil => simpa using ha
        | cons x a => simp only [List.cons_append, List.cons.injEq] at hb; exact absurd (by rw [ha, ← hb.1]; simp) hn1
      · cases a with
        | nil => simpa using ha.symm
        | cons x a => simp only [List.cons_append, List.cons.injEq] at hb; exact absurd (by rw [ha, ← hb.1]; simp) hm1
    have hap : r = .panicked ↔ ∃ k old w, (prog i).Compares k old ∧ effects eqv prog M AMap.empty k = some w ∧ eqv w old = none := by
      rw [hres, resultOn]
      generalize effects eqv prog M AMap.empty = A
      cases hop : prog i with
      | compareAndSwap k o n =>
        constructor
        · intro hh
          simp only [apply] at hh
          (repeat' split at hh) <;> try cases hh
          exact ⟨k, o, _, .inl ⟨n, rfl⟩, by assumption, by assumption⟩
        · rintro ⟨k', o', w, hc, h1, h2⟩
          rcases hc with ⟨n', hc⟩ | hc <;> cases hc
          simp [apply, h1, h2]
      | compareAndDelete k o =>
        constructor
        · intro hh
          simp only [apply] at hh
          (repeat' split at hh) <;> try cases hh
          exact ⟨k, o, _, .inr rfl, by assumption, by assumption⟩
        · rintro ⟨k', o', w, hc, h1, h2⟩
          rcases hc with ⟨n', hc⟩ | hc <;> cases hc
          simp [apply, h1, h2]
      | _ =>
        refine ⟨fun hh => ?_, fun hh => ?_⟩
        · simp only [apply] at hh
          (repeat' split at hh) <;> cases hh
        · obtain ⟨k', o', w, hc, _⟩ := hh
          rcases hc with ⟨n', hc⟩ | hc <;> cases hc
    refine ⟨hap.trans ⟨?_, ?_⟩, ?_⟩
    · rintro ⟨k, old, w, h1, h2, h3⟩; exact ⟨M, M', k, old, w, hM, h1, h2, h3⟩
    · rintro ⟨N, N', k, old, w, hN, h1, h2, h3⟩
      rw [huniq N N' hN] at h2
      exact ⟨k, old, w, h1, h2, h3⟩
    · intro hp N N' hN
      rw [huniq N N' hN, eff_snoc]
      obtain ⟨k, old, w, hc, h1, h2⟩ := hap.1 hp
      rcases hc with ⟨n', hc⟩ | hc <;> rw [hc] <;> simp [apply, h1, h2]

/-- C125: a call that panicked does not hold the mutex, and every call in progress can still complete. -/
theorem rwmap_incomparable_unlocked (hx : Exec eqv prog h s) {i : Nat} (hr : .ret i .panicked ∈ h) :
    s.sh.mu ≠ some i ∧ ∃ s', Cont eqv prog s s' ∧ s'.sh.mu = none ∧ Quiescent s' := by
  obtain ⟨s', h1, h2, _, h3⟩ := rwmap_can_complete hx
  exact ⟨rwmap_unlocked hx (.inl ⟨_, (exec_book hx |>.ret i _).1 hr⟩), s', h1, h2, h3⟩

/-- C125: if all values can be compared nothing panics. -/
theorem rwmap_comparable (hx : Exec eqv prog h s) (heq : ∀ a b, eqv a b ≠ none) (i : Nat) : .ret i .panicked ∉ h := by
  intro hr
  obtain ⟨L, _, hL⟩ := rwmap_incomparable hx
  obtain ⟨_, _, _, _, w, _, _, _, h⟩ := (hL i _ hr).1.1 rfl
  exact heq _ _ h

/-- The value 0 is a function: it cannot be compared with itself. -/
def funEq (a b : Nat) : Option Bool := if a = 0 ∧ b = 0 then none else some (a == b)

def panicProg : Nat → Op Nat Nat
  | 0 => .swap 7 0
  | 1 => .compareAndSwap 7 0 5
  | 2 => .load 7
  | 3 => .compareAndDelete 7 0
  | _ => .len

/-- Call 1 finds the entry in `dirty` and compares with the mutex locked; meanwhile load 2 waits for the mutex.  After the panic the load
goes on, and `CompareAndDelete` panics likewise. -/
example : ((sched funEq panicProg true (rep 10 0 ++ rep 5 1 ++ rep 2 2 ++ rep 2 1 ++ rep 6 2 ++ rep 4 3 ++ rep 3 4) State.init []).map (·.2)) =
    some [.inv 0, .ret 0 (.opt none), .inv 1, .inv 2, .ret 1 .panicked, .ret 2 (.opt (some 0)), .inv 3, .ret 3 .panicked, .inv 4, .ret 4 (.int 1)] := rfl
end Verif.RWMap
