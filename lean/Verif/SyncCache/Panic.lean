import Verif.SyncCache.Out
import Mathlib.Order.WellFounded
import Mathlib.Data.Prod.Lex
import Mathlib.Data.List.Dedup
/-!
# Panics, and calls come to an end
-/
namespace Verif.SyncCache
open Verif.Refresh (get_snoc get_lt get_keep get_new)
variable {K V : Type} [DecidableEq K]
variable {c : Cfg V} {tr : List (Ev K V)} {hist : List (Map K)} {s s' : State K V} {e : Ev K V} {i j p n m q z : Nat} {op : Op K V} {k k' : K} {a : Nat}
  {r : Res V}

/-- Methods of the entry `a`. -/
def Op.on (a : Nat) : Op K V → Prop
  | .value b | .isExpired b | .addExpiration b _ | .setExpiration b _ => b = a
  | _ => False

/-- Who is to blame for a panic: the deleted callback, the function passed to `Range`, the comparison, or a call of a method on something
not an entry. -/
def Blame (c : Cfg V) (tr : List (Ev K V)) (i p : Nat) (op : Op K V) : Prop :=
  (∃ n, p < n ∧ tr[n]? = some (.cbEnd i false)) ∨ (∃ n, p < n ∧ tr[n]? = some (.yieldEnd i none)) ∨
  (∃ k v a w, op = .compareValueAndDelete k v ∧ Live tr i p k a ∧ Made tr a w ∧ c.eqv v w = none) ∨
  ∃ a, op.on a ∧ ∃ z, p < z ∧ z ≤ tr.length ∧ ∀ v, ¬ Made (tr.take z) a v

theorem Blame.sn (h : Blame c tr i p op) : Blame c (tr ++ [e]) i p op := by
  rcases h with ⟨n, h1, h2⟩ | ⟨n, h1, h2⟩ | ⟨k, v, a, w, h1, h2, h3, h4⟩ | ⟨a, h1, z, h2, h3, h4⟩
  · exact .inl ⟨n, h1, get_keep h2⟩
  · exact .inr (.inl ⟨n, h1, get_keep h2⟩)
  · exact .inr (.inr (.inl ⟨k, v, a, w, h1, h2.sn, h3.snoc, h4⟩))
  · exact .inr (.inr (.inr ⟨a, h1, z, h2, by simp; omega, by rw [take_snoc h3]; exact h4⟩))

theorem afterDel_panic {aft : After K V} : afterDel c a aft ≠ .done .panicked := by
  unfold afterDel
  split
  · nofun
  · rcases aft with _ | _ | _ | _ | _ | _ | _ | _ | _ <;> nofun

theorem next_panic {aft : After K V} {b : Bool} : aft.next b ≠ .done .panicked := by
  rcases aft with _ | _ | _ | _ | _ | _ | _ | _ | _ <;> cases b <;> nofun

theorem Exec.blame (h : Exec c tr hist s) : ∀ i, s.pc i = .done .panicked → ∃ p op, Cur tr i p op ∧ Blame c tr i p op := by
  induction h with
  | nil => intro i h; cases h
  | snoc h1 h2 ih =>
    rename_i tr hist s i inp s' e
    intro j hj'
    have hst := step_Step h2
    have hg := h1.glob
    by_cases hj : j = i
    · subst hj
      have old : s.pc j ≠ .idle → e.mild → ∃ p op, p < tr.length ∧ Cur (tr ++ [e]) j p op ∧ Know c tr j p op (s.pc j) := by
        intro h3 h4
        obtain ⟨p, op, h5, h6⟩ := h1.know j h3
        exact ⟨p, op, get_lt h5.1, h5.sn (fun _ => h4), h6⟩
      have nomade : ∀ {a : Nat}, s.ents[a]? = none → ∀ v, ¬ Made ((tr ++ [e]).take tr.length) a v := by
        rintro a hx v ⟨n, i', now, d, hc⟩
        rw [take_all] at hc
        have := hg.bound _ _ _ _ _ _ hc
        have := List.getElem?_eq_none_iff.1 hx
        omega
      have alloc : ∀ {z : Nat} {k : K} {a : Nat}, content (tr.take z) k = some a → s.ents[a]? ≠ none := by
        intro z k a hc
        obtain ⟨x, hx⟩ := h1.alloc hc
        rw [hx]; nofun
      cases hst
      case call op hpc => rw [State.go_pc] at hj'; cases op <;> cases hj'
      case ldNone k x hpc hm => rw [State.go_pc] at hj'; cases x <;> cases hj'
      case chkNone k a now st hpc hx =>
        obtain ⟨p, op, a1, a2, a3⟩ := old (by rw [hpc]; nofun) trivial
        rw [hpc] at a3
        cases st
        case load => obtain ⟨⟨_, ⟨z, _, _, b⟩, _⟩, _⟩ := a3; exact absurd hx (alloc b)
        case cvd => obtain ⟨⟨_, ⟨z, _, _, b⟩, _⟩, _⟩ := a3; exact absurd hx (alloc b)
        case los => obtain ⟨⟨_, z, _, _, b, _⟩, _⟩ := a3; exact absurd hx (alloc b)
        case lad => obtain ⟨⟨_, ⟨z, _, _, b⟩, _⟩, _⟩ := a3; exact absurd hx (alloc b)
        case range => obtain ⟨⟨_, ⟨z, _, _, b⟩, _⟩, _⟩ := a3; exact absurd hx (alloc b)
      case chkDead k a now st x hpc hx hd =>
        rw [State.go_pc] at hj'
        cases st
        case lad => exact absurd hj' afterDel_panic
        all_goals cases hj'
      case chkLive k a now st x hpc hx hd =>
        rw [State.go_pc] at hj'
        cases st
        case lad => exact absurd hj' afterDel_panic
        all_goals cases hj'
      case delSome hpc _ => rw [State.go_pc] at hj'; exact absurd hj' afterDel_panic
      case cadDel hpc _ => rw [State.go_pc] at hj'; exact absurd hj' afterDel_panic
      case cadFail hpc _ => rw [State.go_pc] at hj'; exact absurd hj' next_panic
      case cbNone a aft hpc hx =>
        cases hb : c.hasCb with
        | false => exact absurd hpc (((h1.noCb hb).1 j).1 _ _)
        | true =>
          obtain ⟨n, k, b1, _⟩ := (h1.acc hb j).owed a (by rw [hpc]; rfl)
          exact absurd hx (alloc (h1.del_at b1))
      case cbOk hpc => rw [State.go_pc] at hj'; exact absurd hj' next_panic
      case cbPanic hpc =>
        obtain ⟨p, op, a1, a2, a3⟩ := old (by rw [hpc]; nofun) trivial
        exact ⟨p, op, a2, .inl ⟨_, a1, get_new⟩⟩
      case cvNone k a v hpc hx =>
        obtain ⟨p, op, a1, a2, a3⟩ := old (by rw [hpc]; nofun) trivial
        rw [hpc] at a3
        obtain ⟨_, ⟨z, x, y, now, _, _, _, _, b, _⟩, _⟩ := a3
        exact absurd hx (alloc b)
      case cvPanic k a v x hpc hx he =>
        obtain ⟨p, op, a1, a2, a3⟩ := old (by rw [hpc]; nofun) trivial
        rw [hpc] at a3
        exact ⟨p, op, a2, .inr (.inr (.inl ⟨k, v, a, x.1, a3.1, a3.2.1.sn, (hg.made a x hx).snoc, he⟩))⟩
      case iterSome hpc _ _ _ => rw [State.go_pc] at hj'; unfold Iter.visit at hj'; split at hj' <;> cases hj'
      case tNone k a now it hpc hx =>
        obtain ⟨p, op, a1, a2, a3⟩ := old (by rw [hpc]; nofun) trivial
        rw [hpc] at a3
        obtain ⟨_, ⟨z, _, _, b⟩, _⟩ := a3
        exact absurd hx (alloc b)
      case fPanic hpc =>
        obtain ⟨p, op, a1, a2, a3⟩ := old (by rw [hpc]; nofun) trivial
        exact ⟨p, op, a2, .inr (.inl ⟨_, a1, get_new⟩)⟩
      case valNone a hpc hx =>
        obtain ⟨p, op, a1, a2, a3⟩ := old (by rw [hpc]; nofun) trivial
        rw [hpc] at a3; cases a3
        exact ⟨p, _, a2, .inr (.inr (.inr ⟨a, rfl, tr.length, a1, by simp, nomade hx⟩))⟩
      case ieNone a now hpc hx =>
        obtain ⟨p, op, a1, a2, a3⟩ := old (by rw [hpc]; nofun) trivial
        rw [hpc] at a3; obtain ⟨rfl, _⟩ := a3
        exact ⟨p, _, a2, .inr (.inr (.inr ⟨a, rfl, tr.length, a1, by simp, nomade hx⟩))⟩
      case addNone a d hpc hx =>
        obtain ⟨p, op, a1, a2, a3⟩ := old (by rw [hpc]; nofun) trivial
        rw [hpc] at a3; cases a3
        exact ⟨p, _, a2, .inr (.inr (.inr ⟨a, rfl, tr.length, a1, by simp, nomade hx⟩))⟩
      case setNone a t hpc hx =>
        obtain ⟨p, op, a1, a2, a3⟩ := old (by rw [hpc]; nofun) trivial
        rw [hpc] at a3; cases a3
        exact ⟨p, _, a2, .inr (.inr (.inr ⟨a, rfl, tr.length, a1, by simp, nomade hx⟩))⟩
      all_goals (rw [State.go_pc] at hj'; cases hj')
    · rw [hst.other hj] at hj'
      obtain ⟨p, op, h3, h4⟩ := ih j hj'
      exact ⟨p, op, h3.sn (by rw [hst.tid]; exact fun h => absurd h.symm hj), h4.sn⟩

theorem Exec.panicked (h : Exec c tr hist s) (hq : tr[q]? = some (.ret i .panicked)) (hc : CallAt tr i p op q) : Blame c (tr.take q) i p op := by
  obtain ⟨s0, inp, s1, h1, h2, -⟩ := h.at hq
  have h3 : Step c _ s0 i s1 (.ret i .panicked) := step_Step h2
  cases h3
  case ret hpc =>
    obtain ⟨p', op', h4, h5⟩ := h1.blame i hpc
    obtain ⟨rfl, rfl⟩ := hc.cur h4
    exact h5

/-! ## Calls running alone end -/

/-- A call can always go on. -/
theorem Exec.go_on (h : Exec c tr hist s) (hi : s.pc i ≠ .idle) : ∃ inp s' e, step c hist s i inp = some (s', e) := by
  cases hpc : s.pc i
  case idle => exact absurd hpc hi
  case iStart kind =>
    refine ⟨.snap (s.m.map (·.1)).dedup, ?_⟩
    simp only [step, hpc]
    rw [if_pos ⟨List.nodup_dedup _, fun x hx => List.mem_dedup.2 (List.mem_map_of_mem hx)⟩]
    exact ⟨_, _, rfl⟩
  case iter it =>
    obtain ⟨kind, ks, st⟩ := it
    cases ks with
    | nil => exact ⟨.go, by simp only [step, hpc]; exact ⟨_, _, rfl⟩⟩
    | cons k ks =>
      obtain ⟨p, op, _, h4⟩ := h.know i hi
      rw [hpc] at h4
      have h5 : st ≤ tr.length := h4.le
      refine ⟨.visit tr.length, ?_⟩
      simp only [step, hpc]
      rw [if_neg (by omega)]
      have hl : tr.length < hist.length := by have := h.glob.len; omega
      rw [List.getElem?_eq_getElem hl]
      dsimp only
      split <;> exact ⟨_, _, rfl⟩
  all_goals first
    | (refine ⟨.go, ?_⟩; simp only [step, hpc]; first | exact ⟨_, _, rfl⟩ | (split <;> exact ⟨_, _, rfl⟩); done)
    | (refine ⟨.time 0, ?_⟩; simp only [step, hpc]; exact ⟨_, _, rfl⟩)
    | (refine ⟨.cbFin true, ?_⟩; simp only [step, hpc]; exact ⟨_, _, rfl⟩)
    | (refine ⟨.fFin none, ?_⟩; simp only [step, hpc]; exact ⟨_, _, rfl⟩)

/-- Whether the map has `k`. -/
def has (m : Map K) (k : K) : Nat := if m.get k = none then 0 else 1

/-- How much is left of a call running alone: (before the snapshot, keys left, steps). -/
def left (s : State K V) : PC K V → Nat × Nat × Nat
  | .idle => (0, 0, 0)
  | .done _ => (0, 0, 1)
  | .losMk k _ _ => (0, 0, 15 + 20 * has s.m k)
  | .losTry k _ _ _ => (0, 0, 14 + 20 * has s.m k)
  | .chk k _ (.los _ _) => (0, 0, 13 + 20 * has s.m k)
  | .chkExp k _ _ (.los _ _) => (0, 0, 12 + 20 * has s.m k)
  | .cad k _ (.los k' _ _ _) => if k' = k then (0, 0, 11 + 20 * has s.m k) else (1, 0, 0)
  | .cbCall _ (.los k _ _ _) => (0, 0, 17 + 20 * has s.m k)
  | .cbRun (.los k _ _ _) => (0, 0, 16 + 20 * has s.m k)
  | .stMk _ _ _ => (0, 0, 3)
  | .stPut _ _ => (0, 0, 2)
  | .ldGet _ _ => (0, 0, 8)
  | .chk _ _ (.range it) => (0, it.rest.length, 8)
  | .chk _ _ _ => (0, 0, 7)
  | .chkExp _ _ _ (.range it) => (0, it.rest.length, 7)
  | .chkExp _ _ _ _ => (0, 0, 6)
  | .cvEq _ _ _ => (0, 0, 5)
  | .cad _ _ (.iter it) => (0, it.rest.length, 5)
  | .cad _ _ _ => (0, 0, 4)
  | .cbCall _ (.iter it) => (0, it.rest.length, 4)
  | .cbCall _ _ => (0, 0, 3)
  | .cbRun (.iter it) => (0, it.rest.length, 3)
  | .cbRun _ => (0, 0, 2)
  | .delTry _ => (0, 0, 9)
  | .ladTry _ => (0, 0, 9)
  | .clr => (1, 0, 1)
  | .iStart _ => (1, 0, 0)
  | .iter it => (0, it.rest.length, 2)
  | .tChk _ _ _ it => (0, it.rest.length, 8)
  | .fCall _ _ it => (0, it.rest.length, 6)
  | .fRun it => (0, it.rest.length, 5)
  | .tkReg => (1, 0, 2)
  | .trNow => (1, 0, 1)
  | .regPut _ => (0, 0, 2)
  | .neMk _ _ => (0, 0, 2)
  | .valGet _ => (0, 0, 2)
  | .ieNow _ => (0, 0, 3)
  | .ieChk _ _ => (0, 0, 2)
  | .addE _ _ => (0, 0, 2)
  | .setE _ _ => (0, 0, 2)

abbrev lt3 : Nat × Nat × Nat → Nat × Nat × Nat → Prop := Prod.Lex (· < ·) (Prod.Lex (· < ·) (· < ·))

theorem lt3_wf : WellFounded lt3 := (Prod.lex Nat.lt_wfRel (Prod.lex Nat.lt_wfRel Nat.lt_wfRel)).wf

theorem lt3.x1 {a a' b b' c c' : Nat} (h : a < a') : lt3 (a, b, c) (a', b', c') := .left _ _ h
theorem lt3.x2 {a b b' c c' : Nat} (h : b < b') : lt3 (a, b, c) (a, b', c') := .right _ (.left _ _ h)
theorem lt3.x3 {a b c c' : Nat} (h : c < c') : lt3 (a, b, c) (a, b, c') := .right _ (.right _ h)
theorem lt3.x23 {a b b' c c' : Nat} (h : b ≤ b') (h' : c < c') : lt3 (a, b, c) (a, b', c') := by
  rcases Nat.lt_or_eq_of_le h with h1 | h1
  · exact .x2 h1
  · subst h1; exact .x3 h'

theorem has_erase {m : Map K} : has (m.erase k) k = 0 := by simp [has, Map.get_erase]

theorem Step.left (h : Step c hist s i s' e) (hi : s.pc i ≠ .idle) : lt3 (left s' (s'.pc i)) (left s (s.pc i)) := by
  have next : ∀ {aft : After K V} {b : Bool}, (∀ k v d a, aft = .los k v d a → b = true) → ∀ {s : State K V},
      lt3 (SyncCache.left s (aft.next b)) (SyncCache.left s (.cbRun aft)) := by
    intro aft b h s
    rcases aft with _ | _ | _ | _ | ⟨k, v, d, a⟩ | _ | _ | _ | _
    case los => rw [h k v d a rfl]; exact .x3 (by omega)
    all_goals (cases b <;> exact .x3 (by decide))
  have run : ∀ {aft : After K V} {a : Nat} {s : State K V}, lt3 (SyncCache.left s (.cbRun aft)) (SyncCache.left s (.cbCall a aft)) := by
    intro aft a s
    rcases aft with _ | _ | _ | _ | ⟨k, v, d, a⟩ | _ | _ | _ | _ <;> exact .x3 (by omega)
  have tran : ∀ {x y z : Nat × Nat × Nat}, lt3 x y → lt3 y z → lt3 x z := by
    rintro ⟨x1, x2, x3⟩ ⟨y1, y2, y3⟩ ⟨z1, z2, z3⟩ h1 h2
    simp only [lt3, Prod.lex_def] at *
    omega
  have after : ∀ {aft : After K V} {a : Nat} {s : State K V} {x : Nat × Nat × Nat},
      lt3 (SyncCache.left s (.cbCall a aft)) x → lt3 (SyncCache.left s (afterDel c a aft)) x := by
    intro aft a s x hx
    unfold afterDel
    split
    · exact hx
    · exact tran (next (fun _ _ _ _ _ => rfl)) (tran (run (a := a)) hx)
  cases h
  case call op hpc => exact absurd hpc hi
  case ldSome k x a hpc hm => rw [State.go_pc, hpc]; cases x <;> exact .x3 (by decide)
  case chk k a st now hpc => rw [State.go_pc, hpc]; cases st <;> exact .x3 (by simp [State.go])
  case chkNone k a now st hpc hx =>
    rw [State.go_pc, hpc]
    cases st
    case range it => exact .x23 (Nat.zero_le _) (by decide)
    all_goals exact .x3 (by omega)
  case chkDead k a now st x hpc hx hd =>
    rw [State.go_pc, hpc]
    cases st
    case lad => exact after (.x3 (by decide))
    all_goals (simp only [SyncCache.left, State.go, Site.dead, if_true]; exact .x3 (by omega))
  case chkLive k a now st x hpc hx hd =>
    rw [State.go_pc, hpc]
    cases st
    case lad => exact after (.x3 (by decide))
    all_goals exact .x3 (by omega)
  case losMk hpc => rw [State.go_pc, hpc]; exact .x3 (by simp [State.go, State.mk_])
  case losPut hpc _ => rw [State.go_pc, hpc]; exact .x3 (by omega)
  case losGet hpc _ => rw [State.go_pc, hpc]; exact .x3 (by simp [State.go])
  case delSome hpc _ => rw [State.go_pc, hpc]; exact after (.x3 (by decide))
  case cadDel k a aft hpc hm =>
    rw [State.go_pc, hpc]
    refine after ?_
    rcases aft with _ | _ | _ | _ | ⟨k', v, d, a'⟩ | _ | _ | _ | _
    case los =>
      by_cases hk : k' = k
      · subst hk
        have h1 : has s.m k' = 1 := by simp [has, hm]
        simp only [SyncCache.left, if_true, State.go, has_erase, h1]
        exact .x3 (by decide)
      · simp only [SyncCache.left, if_neg hk]
        exact .x1 (by decide)
    all_goals exact .x3 (by decide)
  case cadFail k a aft hpc hm =>
    rw [State.go_pc, hpc]
    rcases aft with _ | _ | _ | _ | ⟨k', v, d, a'⟩ | _ | _ | _ | _
    case los =>
      simp only [SyncCache.left, After.next]
      split
      · exact .x3 (by omega)
      · exact .x1 (by decide)
    all_goals exact .x3 (by decide)
  case cbNone a aft hpc hx =>
    rw [State.go_pc, hpc]
    rcases aft with _ | _ | _ | _ | ⟨k', v, d, a'⟩ | _ | _ | _ | _ <;> exact .x23 (Nat.zero_le _) (by omega)
  case cbCall a aft x hpc hx => rw [State.go_pc, hpc]; exact run
  case cbOk aft hpc => rw [State.go_pc, hpc]; exact next (fun _ _ _ _ _ => rfl)
  case cbPanic aft hpc =>
    rw [State.go_pc, hpc]
    rcases aft with _ | _ | _ | _ | ⟨k', v, d, a'⟩ | _ | _ | _ | _ <;> exact .x23 (Nat.zero_le _) (by omega)
  case snap hpc _ _ => rw [State.go_pc, hpc]; exact .x1 (by decide)
  case clrWipe hpc _ => rw [State.go_pc, hpc]; exact .x1 (by decide)
  case tkOff hpc _ => rw [State.go_pc, hpc]; exact .x1 (by decide)
  case iterEnd hpc => rw [State.go_pc, hpc]; exact .x3 (by decide)
  case iterNone hpc _ _ _ => rw [State.go_pc, hpc]; exact .x2 (by simp)
  case iterSome hpc _ _ _ => rw [State.go_pc, hpc]; unfold Iter.visit; split <;> exact .x2 (by simp)
  case tNone hpc _ => rw [State.go_pc, hpc]; exact .x23 (Nat.zero_le _) (by decide)
  case fPanic hpc => rw [State.go_pc, hpc]; exact .x23 (Nat.zero_le _) (by decide)
  case fStop hpc => rw [State.go_pc, hpc]; exact .x23 (Nat.zero_le _) (by decide)
  all_goals
    rw [State.go_pc, (by assumption : s.pc i = _)]
    exact .x3 (by decide)

end Verif.SyncCache
