import Verif.SyncCache.Ends
import Verif.RWMap.Ends
/-!
# All calls of SyncCache come to an end (C133)
-/
namespace Verif.SyncCache
open Verif.RWMap (total total_lt total_eq)
variable {K V : Type} [DecidableEq K]
variable {c : Cfg V} {tr : List (Ev K V)} {hist : List (Map K)} {s s' : State K V} {e : Ev K V} {i j : Nat}

/-- How often a call may still put an entry into the map. -/
def puts : PC K V → Nat
  | .stMk _ _ _ | .stPut _ _ | .losMk _ _ _ | .losTry _ _ _ _ => 1
  | .chk _ _ (.los _ _) | .chkExp _ _ _ (.los _ _) => 1
  | .cad _ _ (.los _ _ _ _) | .cbCall _ (.los _ _ _ _) | .cbRun (.los _ _ _ _) => 1
  | _ => 0

/-- Whether the keys for a loop are still to be taken. -/
def fresh : PC K V → Nat
  | .clr | .iStart _ | .tkReg | .trNow => 1
  | _ => 0

/-- Steps to come, with the keys of a loop, up to the next removal from the map. -/
def work : PC K V → Nat
  | .idle => 0
  | .done _ => 1
  | .losMk _ _ _ => 15
  | .losTry _ _ _ _ => 14
  | .chk _ _ (.los _ _) => 13
  | .chkExp _ _ _ (.los _ _) => 12
  | .cad _ _ (.los _ _ _ _) => 11
  | .cbCall _ (.los _ _ _ _) => 17
  | .cbRun (.los _ _ _ _) => 16
  | .stMk _ _ _ => 3
  | .stPut _ _ => 2
  | .ldGet _ _ => 8
  | .chk _ _ (.range it) => 20 * it.rest.length + 8
  | .chk _ _ _ => 7
  | .chkExp _ _ _ (.range it) => 20 * it.rest.length + 7
  | .chkExp _ _ _ _ => 6
  | .cvEq _ _ _ => 5
  | .cad _ _ (.iter it) => 20 * it.rest.length + 5
  | .cad _ _ _ => 4
  | .cbCall _ (.iter it) => 20 * it.rest.length + 4
  | .cbCall _ _ => 3
  | .cbRun (.iter it) => 20 * it.rest.length + 3
  | .cbRun _ => 2
  | .delTry _ => 9
  | .ladTry _ => 9
  | .clr => 3
  | .iStart _ => 2
  | .iter it => 20 * it.rest.length + 2
  | .tChk _ _ _ it => 20 * it.rest.length + 8
  | .fCall _ _ it => 20 * it.rest.length + 6
  | .fRun it => 20 * it.rest.length + 5
  | .tkReg => 4
  | .trNow => 3
  | .regPut _ => 2
  | .neMk _ _ => 2
  | .valGet _ => 2
  | .ieNow _ => 3
  | .ieChk _ _ => 2
  | .addE _ _ => 2
  | .setE _ _ => 2

theorem length_erase_lt {m : Map K} {k : K} {a : Nat} (h : m.get k = some a) : (m.erase k).length < m.length := by
  induction m with
  | nil => simp [Map.get] at h
  | cons x m ih =>
    by_cases hx : x.1 = k
    · simp only [Map.erase, List.filter_cons, hx]
      have := List.length_filter_le (fun y : K × Nat => decide (y.1 ≠ k)) m
      simpa using Nat.lt_succ_of_le this
    · have h' : Map.get m k = some a := by simpa [Map.get, List.find?_cons, hx] using h
      have := ih h'
      simpa [Map.erase, List.filter_cons, hx] using this

/-- One step of a call in progress. -/
theorem Step.down (h : Step c hist s i s' e) (hi : s.pc i ≠ .idle) :
    puts (s'.pc i) < puts (s.pc i) ∨
    (puts (s'.pc i) ≤ puts (s.pc i) ∧ s'.m.length < s.m.length) ∨
    (puts (s'.pc i) ≤ puts (s.pc i) ∧ s'.m.length ≤ s.m.length ∧ fresh (s'.pc i) < fresh (s.pc i)) ∨
    (puts (s'.pc i) ≤ puts (s.pc i) ∧ s'.m.length ≤ s.m.length ∧ fresh (s'.pc i) ≤ fresh (s.pc i) ∧ work (s'.pc i) < work (s.pc i)) := by
  have after : ∀ (a : Nat) (aft : After K V), puts (afterDel c a aft) ≤ puts (.cbCall a aft) := by
    intro a aft
    unfold afterDel
    split
    · exact Nat.le_refl _
    · rcases aft with _ | _ | _ | _ | _ | _ | _ | _ | _ <;> simp [After.next, puts]
  have lad : ∀ (a : Nat) (x : Option Nat), fresh (afterDel c a (.lad x : After K V)) = 0 ∧ work (afterDel c a (.lad x : After K V)) ≤ 3 := by
    intro a x
    unfold afterDel
    split
    · exact ⟨rfl, Nat.le_refl _⟩
    · cases x <;> exact ⟨rfl, by simp [After.next, work]⟩
  cases h
  case call op hpc => exact absurd hpc hi
  case stPut hpc => rw [State.go_pc, hpc]; exact .inl (by simp [puts])
  case losPut hpc _ => rw [State.go_pc, hpc]; exact .inl (by simp [puts])
  case delSome k a hpc hm => rw [State.go_pc, hpc]; exact .inr (.inl ⟨after _ _, length_erase_lt hm⟩)
  case ladSome k a hpc hm => rw [State.go_pc, hpc]; exact .inr (.inl ⟨Nat.le_refl _, length_erase_lt hm⟩)
  case cadDel k a aft hpc hm =>
    rw [State.go_pc, hpc]
    refine .inr (.inl ⟨Nat.le_trans (after _ _) ?_, length_erase_lt hm⟩)
    rcases aft with _ | _ | _ | _ | _ | _ | _ | _ | _ <;> exact Nat.le_refl _
  case cadFail k a aft hpc hm =>
    rw [State.go_pc, hpc]
    rcases aft with _ | _ | _ | _ | _ | _ | _ | _ | _ <;> simp [After.next, puts, fresh, work, State.go]
  case ldSome k x a hpc hm => rw [State.go_pc, hpc]; cases x <;> simp [puts, fresh, work, State.go]
  case chk k a st now hpc => rw [State.go_pc, hpc]; cases st <;> simp [puts, fresh, work, State.go]
  case chkNone k a now st hpc hx => rw [State.go_pc, hpc]; cases st <;> simp [puts, fresh, work, State.go]
  case chkDead k a now st x hpc hx hd =>
    rw [State.go_pc, hpc]
    cases st
    case lad =>
      refine .inr (.inr (.inr ⟨after _ _, Nat.le_refl _, ?_, ?_⟩))
      · exact Nat.le_of_eq (lad a none).1
      · exact Nat.lt_of_le_of_lt (lad a none).2 (by simp [work])
    all_goals simp [Site.dead, puts, fresh, work, State.go]
  case chkLive k a now st x hpc hx hd =>
    rw [State.go_pc, hpc]
    cases st
    case lad =>
      refine .inr (.inr (.inr ⟨after _ _, Nat.le_refl _, ?_, ?_⟩))
      · exact Nat.le_of_eq (lad a (some a)).1
      · exact Nat.lt_of_le_of_lt (lad a (some a)).2 (by simp [work])
    all_goals simp [Site.live, puts, fresh, work, State.go]
  case cbNone a aft hpc hx =>
    rw [State.go_pc, hpc]
    rcases aft with _ | _ | _ | _ | _ | _ | _ | _ | _ <;> simp [puts, fresh, work, State.go]
  case cbCall a aft x hpc hx =>
    rw [State.go_pc, hpc]
    rcases aft with _ | _ | _ | _ | _ | _ | _ | _ | _ <;> simp [puts, fresh, work, State.go]
  case cbOk aft hpc =>
    rw [State.go_pc, hpc]
    rcases aft with _ | _ | _ | _ | _ | _ | _ | _ | _ <;> simp [After.next, puts, fresh, work, State.go]
  case cbPanic aft hpc =>
    rw [State.go_pc, hpc]
    rcases aft with _ | _ | _ | _ | _ | _ | _ | _ | _ <;> simp [puts, fresh, work, State.go]
  case iterSome hpc _ _ _ =>
    rw [State.go_pc, hpc]
    unfold Iter.visit
    split <;> simp [puts, fresh, work, State.go] <;> omega
  all_goals
    rw [State.go_pc, (by assumption : s.pc i = _)]
    simp [puts, fresh, work, State.go, State.mk_]

/-- What decreases. -/
def todo (is : List Nat) (s : State K V) : Nat ×ₗ (Nat ×ₗ (Nat ×ₗ Nat)) :=
  toLex (total is fun i => puts (s.pc i), toLex (s.m.length, toLex (total is fun i => fresh (s.pc i), total is fun i => work (s.pc i))))

theorem total_le {is : List Nat} (hd : is.Nodup) (hi : i ∈ is) {f g : Nat → Nat} (ho : ∀ j, j ≠ i → f j = g j) (h : f i ≤ g i) :
    total is f < total is g ∨ total is f = total is g := by
  rcases Nat.lt_or_eq_of_le h with h | h
  · exact .inl (total_lt hd hi ho h)
  · exact .inr (total_eq ho h)

theorem Step.todo_lt {is : List Nat} (hd : is.Nodup) (hm : i ∈ is) (hi : s.pc i ≠ .idle) (h : Step c hist s i s' e) : todo is s' < todo is s := by
  have ho : ∀ j, j ≠ i → s'.pc j = s.pc j := fun j hj => h.other hj
  have le : ∀ f : PC K V → Nat, f (s'.pc i) ≤ f (s.pc i) → total is (fun i => f (s'.pc i)) < total is (fun i => f (s.pc i)) ∨
      total is (fun i => f (s'.pc i)) = total is (fun i => f (s.pc i)) :=
    fun f hf => total_le hd hm (fun j hj => by rw [ho j hj]) hf
  have lt : ∀ f : PC K V → Nat, f (s'.pc i) < f (s.pc i) → total is (fun i => f (s'.pc i)) < total is (fun i => f (s.pc i)) :=
    fun f hf => total_lt hd hm (fun j hj => by rw [ho j hj]) hf
  simp only [todo, Prod.Lex.toLex_lt_toLex]
  rcases h.down hi with h1 | ⟨h1, h2⟩ | ⟨h1, h2, h3⟩ | ⟨h1, h2, h3, h4⟩
  · exact .inl (lt _ h1)
  · rcases le _ h1 with h1 | h1
    · exact .inl h1
    · exact .inr ⟨h1, .inl h2⟩
  · rcases le _ h1 with h1 | h1
    · exact .inl h1
    · refine .inr ⟨h1, ?_⟩
      rcases Nat.lt_or_eq_of_le h2 with h2 | h2
      · exact .inl h2
      · exact .inr ⟨h2, .inl (lt _ h3)⟩
  · rcases le _ h1 with h1 | h1
    · exact .inl h1
    · refine .inr ⟨h1, ?_⟩
      rcases Nat.lt_or_eq_of_le h2 with h2 | h2
      · exact .inl h2
      · refine .inr ⟨h2, ?_⟩
        rcases le _ h3 with h3 | h3
        · exact .inl h3
        · exact .inr ⟨h3, lt _ h4⟩

/-- Only finitely many threads are in calls. -/
theorem Exec.finite (h : Exec c tr hist s) : ∃ is : List Nat, ∀ i, i ∉ is → s.pc i = .idle := by
  induction h with
  | nil => exact ⟨[], fun _ _ => rfl⟩
  | snoc h1 h2 ih =>
    rename_i i inp s' e
    obtain ⟨is, his⟩ := ih
    refine ⟨i :: is, fun j hj => ?_⟩
    rw [List.mem_cons, not_or] at hj
    rw [(step_Step h2).other hj.1]
    exact his j hj.2

/-- All calls have returned. -/
def AllBack (s : State K V) : Prop := ∀ i, s.pc i = .idle

/-- A step of a call in progress; no call is made. -/
def Goes (c : Cfg V) (x x' : List (Map K) × State K V) : Prop :=
  ∃ i inp e, x.2.pc i ≠ .idle ∧ step c x.1 x.2 i inp = some (x'.2, e) ∧ x'.1 = x.1 ++ [x'.2.m]

theorem goes_wf {is : List Nat} (hd : is.Nodup) : ∀ x : List (Map K) × State K V, (∀ i, i ∉ is → x.2.pc i = .idle) →
    _root_.Acc (fun x' x => Goes c x x') x := by
  intro x
  have wf : WellFounded (fun a b : Nat ×ₗ (Nat ×ₗ (Nat ×ₗ Nat)) => a < b) := wellFounded_lt
  induction hr : todo is x.2 using wf.induction generalizing x with
  | _ r ih =>
    intro hs
    constructor
    rintro x' ⟨i, inp, e, hi, hn, -⟩
    have hm : i ∈ is := by
      by_contra hc; exact hi (hs i hc)
    have hst := step_Step hn
    refine ih _ (hr ▸ hst.todo_lt hd hm hi) x' rfl ?_
    intro j hj
    rw [hst.other (by rintro rfl; exact hj hm)]
    exact hs j hj

/-- **C133**: without new calls there is no end of progress: in whatever order the calls in progress are given their turns, whatever the clock says and
however the functions of the user end, there are only finitely many steps. -/
theorem sync_finite (hx : Exec c tr hist s) (f : Nat → List (Map K) × State K V) (h0 : f 0 = (hist, s)) : ¬ ∀ n, Goes c (f n) (f (n + 1)) := by
  intro hf
  obtain ⟨is, his⟩ := hx.finite
  have acc := goes_wf (c := c) (List.nodup_dedup is) (hist, s) (fun i hi => his i (by simpa using hi))
  have : ∀ x, _root_.Acc (fun x' x => Goes c x x') x → ∀ n, f n = x → False := by
    intro x acc
    induction acc with
    | intro x _ ih =>
      rintro n rfl
      exact ih _ (hf n) (n + 1) rfl
  exact this _ acc 0 h0

/-- **C133**: every call in progress can make a step. -/
theorem sync_goes (hx : Exec c tr hist s) (hi : s.pc i ≠ .idle) : ∃ x', Goes c (hist, s) x' := by
  obtain ⟨inp, s', e, h⟩ := sync_no_wait hx hi
  exact ⟨(hist ++ [s'.m], s'), i, inp, e, hi, h, rfl⟩

/-- **C133**: so all calls return, whatever the scheduler does, if no new ones are made. -/
theorem sync_all_return (hx : Exec c tr hist s) (f : Nat → List (Map K) × State K V) (h0 : f 0 = (hist, s))
    (hf : ∀ n, ¬ AllBack (f n).2 → Goes c (f n) (f (n + 1))) : ∃ n, AllBack (f n).2 := by
  by_contra hc
  exact sync_finite hx f h0 fun n => hf n fun hq => hc ⟨n, hq⟩

/-- Two calls of `LoadOrStore` and the trimmer, all finding the expired entry 0: the first one takes it out, makes a second try, and finds the entry of
the second one, which is expired too. It takes it out and stores its third. -/
example : (trace (cfg false) (stores 0 1 7 100 0 ++
      [(1, .call (.loadOrStore 1 8 50000000)), (2, .call (.loadOrStore 1 9 0)), (1, .time 101000000), (1, .go), (1, .time 101000000), (1, .go), (1, .go),
       (2, .time 101000000), (2, .go), (2, .go),
       (1, .time 102000000), (1, .go), (1, .time 102000000), (1, .go), (1, .go), (1, .time 103000000), (1, .go), (1, .go)])).map
      (fun tr => (tr.filter (Ev.mkBy 1)).length) = some 3 := by rfl
end Verif.SyncCache
