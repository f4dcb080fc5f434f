import Verif.SyncCache.Panic
/-!
# How often `LoadOrStore` tries
-/
namespace Verif.SyncCache
open Verif.Refresh (get_snoc get_lt get_keep get_new)
variable {K V : Type} [DecidableEq K]
variable {c : Cfg V} {tr : List (Ev K V)} {hist : List (Map K)} {s s' : State K V} {e : Ev K V} {i j p n m q z : Nat} {op : Op K V} {k k' : K} {a : Nat}
  {r : Res V} {v : V} {d : Int}

/-- Thread `i` makes an entry. -/
def Ev.mkBy (i : Nat) : Ev K V → Bool
  | .mk j _ _ _ _ => j == i
  | _ => false
/-- An entry is put for `k`. -/
def Ev.putOn (k : K) : Ev K V → Bool
  | .put _ k' _ => k' == k
  | _ => false
/-- An entry is put for `k`, not by `i`. -/
def Ev.putOther (i : Nat) (k : K) : Ev K V → Bool
  | .put j k' _ => k' == k && j != i
  | _ => false
def Ev.delOn (k : K) : Ev K V → Bool
  | .del _ k' _ => k' == k
  | _ => false
def Ev.delBy (i : Nat) (k : K) : Ev K V → Bool
  | .del j k' _ => k' == k && j == i
  | _ => false

/-- How many events from `p` on. -/
def count (f : Ev K V → Bool) (tr : List (Ev K V)) (p : Nat) : Nat := (tr.drop p).countP f

theorem count_snoc {f : Ev K V → Bool} (hp : p ≤ tr.length) : count f (tr ++ [e]) p = count f tr p + (if f e then 1 else 0) := by
  simp only [count, List.drop_append_of_le_length hp, List.countP_append, List.countP_singleton]

theorem count_self {f : Ev K V → Bool} (hp : tr.length ≤ p) : count f tr p = 0 := by simp [count, List.drop_eq_nil_of_le hp]

theorem count_le {f g : Ev K V → Bool} (h : ∀ e, f e = true → g e = true) : count f tr p ≤ count g tr p :=
  List.countP_mono_left fun e _ => h e

/-- Whether there is one. -/
def one (x : Option Nat) : Nat := if x = none then 0 else 1

/-- To be removed an entry has to be put. -/
theorem Exec.del_put (h : Exec c tr hist s) : ∀ p, p ≤ tr.length → count (Ev.delOn k) tr p + one (content tr k) ≤ count (Ev.putOn k) tr p + 1 := by
  induction h with
  | nil => intro p hp; simp [count, one, content]
  | snoc h1 h2 ih =>
    rename_i tr hist s i inp s' e
    intro p hp
    rcases Nat.lt_or_ge tr.length p with h3 | h3
    · rw [count_self (by simp; omega), count_self (by simp; omega)]; simp [one]; split <;> omega
    · rw [count_snoc h3, count_snoc h3, content_snoc]
      have := ih p h3
      cases e with
      | put j k' a =>
        by_cases hk : k' = k
        · simp [Ev.delOn, Ev.putOn, Ev.onKey, hk, one] at this ⊢
          omega
        · simpa [Ev.delOn, Ev.putOn, Ev.onKey, hk, one] using this
      | del j k' a =>
        by_cases hk : k' = k
        · subst hk
          have h4 := (h1.snoc h2).del_at (n := tr.length) (i := j) (k := k') (a := a) get_new
          rw [take_all] at h4
          simp [Ev.delOn, Ev.putOn, Ev.onKey, one, h4] at this ⊢
          omega
        · simpa [Ev.delOn, Ev.putOn, Ev.onKey, hk, one] using this
      | wipe j =>
        simp [Ev.delOn, Ev.putOn, Ev.onKey, one] at this ⊢
        omega
      | _ => simp [Ev.delOn, Ev.putOn, Ev.onKey, one] at this ⊢; exact this

/-- Between two tries. -/
def PC.between : PC K V → Nat
  | .losMk _ _ _ | .cbCall _ _ | .cbRun _ => 0
  | _ => 1
def PC.isDone : PC K V → Prop
  | .done _ => True
  | _ => False

/-- Where `LoadOrStore` can be. -/
def PC.losLike : PC K V → Prop
  | .losMk _ _ _ | .losTry _ _ _ _ | .chk _ _ (.los _ _) | .chkExp _ _ _ (.los _ _) | .cad _ _ (.los _ _ _ _) | .cbCall _ (.los _ _ _ _)
  | .cbRun (.los _ _ _ _) | .done _ => True
  | _ => False

theorem IterP.notLos {it : Iter K} {cur : List (K × Nat)} (h : IterP tr i p (.loadOrStore k v d) it cur) : False := by
  have := h.ok
  cases hk : it.kind <;> rw [hk] at this <;> cases this

theorem Know.losLike {pc : PC K V} (h : Know c tr i p (.loadOrStore k v d) pc) : pc.losLike := by
  cases pc
  case losMk | losTry | done => trivial
  case ldGet k x => cases x <;> cases h.1
  case chk k a st =>
    cases st
    case los => trivial
    case range => exact (IterP.notLos h.2.2).elim
    all_goals cases h.1
  case chkExp k a now st =>
    cases st
    case los => trivial
    case range => exact (IterP.notLos h.1.2.2).elim
    all_goals cases h.1.1
  case cad k a aft =>
    cases aft with
    | los => trivial
    | user => cases h
    | loadExp => cases h.1
    | cvdExp => obtain ⟨_, h5⟩ := h.1; cases h5
    | cvd => obtain ⟨_, _, h5, _⟩ := h; cases h5
    | iter it => exact (IterP.notLos h.1).elim
    | del => exact h.elim
    | lad => exact h.elim
  case cbCall a aft =>
    cases aft with
    | los => trivial
    | user => obtain ⟨_, _, _, h5, _⟩ := h; cases h5
    | loadExp => obtain ⟨_, _, h5, _⟩ := h; cases h5
    | cvdExp => obtain ⟨⟨_, _, _, h5, _⟩, _⟩ := h; cases h5
    | cvd => obtain ⟨_, _, _, _, _, h5, _⟩ := h; cases h5
    | iter it => exact (IterP.notLos h).elim
    | del => obtain ⟨_, _, _, h5, _⟩ := h; cases h5
    | lad x =>
      cases x
      · obtain ⟨_, _, _, h5, _⟩ := h; cases h5
      · obtain ⟨_, _, h5, _⟩ := h; cases h5
  case cbRun aft =>
    cases aft with
    | los => trivial
    | user => obtain ⟨_, _, _, h5, _⟩ := h; cases h5
    | loadExp => obtain ⟨_, _, h5, _⟩ := h; cases h5
    | cvdExp => obtain ⟨⟨_, _, _, h5, _⟩, _⟩ := h; cases h5
    | cvd => obtain ⟨_, _, _, _, _, h5, _⟩ := h; cases h5
    | iter it => exact (IterP.notLos h).elim
    | del => obtain ⟨_, _, _, h5, _⟩ := h; cases h5
    | lad x =>
      cases x
      · obtain ⟨_, _, _, h5, _⟩ := h; cases h5
      · obtain ⟨_, _, h5, _⟩ := h; cases h5
  case iStart kind => have := h.1; cases kind <;> cases this
  case iter => exact (IterP.notLos h).elim
  case tChk => exact (IterP.notLos h.2.2).elim
  case fCall => exact (IterP.notLos h.2.2).elim
  case fRun => exact (IterP.notLos h.2).elim
  case regPut b => cases b <;> cases h
  case stPut => obtain ⟨_, _, h5, _⟩ := h; cases h5
  case cvEq => cases h.1
  case clr => cases h.1
  case tkReg => cases h.1
  case trNow => cases h.1
  case ieChk => cases h.1
  all_goals cases h

theorem Exec.tries (h : Exec c tr hist s) : ∀ i p k v d, Cur tr i p (.loadOrStore k v d) → s.pc i ≠ .idle →
    count (Ev.mkBy i) tr p ≤ count (Ev.delBy i k) tr p + (s.pc i).between ∧
    ((s.pc i).isDone ∨ ∀ (n : Nat) (k' : K) (a : Nat), p < n → tr[n]? ≠ some (.put i k' a)) := by
  induction h with
  | nil => intro i p k v d h; simp [Cur] at h
  | snoc h1 h2 ih =>
    rename_i tr hist s i inp s' e
    intro j p k v d hcur hidle
    have hst := step_Step h2
    by_cases hnew : p = tr.length
    · subst hnew
      have := hcur.1
      rw [get_new] at this
      injection this with this
      subst this
      have hij : j = i := hst.tid
      subst hij
      cases hst
      rw [State.go_pc, count_snoc (Nat.le_refl _), count_self (Nat.le_refl _)]
      refine ⟨by simp [Ev.mkBy], .inr fun n k' a hn hc => ?_⟩
      have := get_lt hc; simp at this; omega
    have hp : p < tr.length := by have := get_lt hcur.1; simp at this; omega
    have hcur' : Cur tr j p (.loadOrStore k v d) := by
      refine ⟨?_, fun n op' hn hc => hcur.2 n op' hn (get_keep hc)⟩
      rcases get_snoc.1 hcur.1 with h3 | ⟨h3, _⟩
      · exact h3
      · omega
    rw [count_snoc (Nat.le_of_lt hp), count_snoc (Nat.le_of_lt hp)]
    have keep : ∀ {Q : Prop}, (Q ∨ ∀ (n : Nat) (k' : K) (a : Nat), p < n → tr[n]? ≠ some (.put j k' a)) → (∀ k' a, e ≠ .put j k' a) →
        (Q ∨ ∀ (n : Nat) (k' : K) (a : Nat), p < n → (tr ++ [e])[n]? ≠ some (.put j k' a)) := by
      rintro Q (h3 | h3) h4
      · exact .inl h3
      · refine .inr fun n k' a hn hc => ?_
        rcases get_snoc.1 hc with h5 | ⟨_, h5⟩
        · exact h3 n k' a hn h5
        · exact h4 k' a h5.symm
    by_cases hj : j = i
    · subst hj
      have hni : s.pc j ≠ .idle := by
        intro hpc
        cases hst
        case call op _ => exact hcur.2 tr.length op hp get_new
        all_goals simp_all
      obtain ⟨q, op, h3, h4⟩ := h1.know j hni
      have huniq : q = p ∧ op = .loadOrStore k v d := by
        have hc : CallAt tr j q op tr.length := ⟨get_lt h3.1, h3.1, fun n op' hn _ => h3.2 n op' hn⟩
        have := hc.cur (p' := p) (op' := .loadOrStore k v d) (by rw [List.take_length]; exact hcur')
        exact ⟨this.1.symm, this.2.symm⟩
      obtain ⟨rfl, rfl⟩ := huniq
      obtain ⟨b1, b2⟩ := ih j q k v d hcur' hni
      have nd : ∀ {P : Prop}, ¬ (s.pc j).isDone → P → (¬ (s.pc j).isDone ∧ P) := fun a b => ⟨a, b⟩
      have notput : ∀ {pc : PC K V}, s.pc j = pc → ¬ pc.isDone → (∀ (k' : K) (a : Nat), e ≠ .put j k' a) →
          ∀ {Q : Prop}, (Q ∨ ∀ (n : Nat) (k' : K) (a : Nat), q < n → (tr ++ [e])[n]? ≠ some (.put j k' a)) := by
        rintro pc rfl h5 h6 Q
        exact keep (.inr (b2.resolve_left h5)) h6
      cases hst
      case losMk k' v' d' now hpc =>
        rw [State.go_pc]; rw [hpc] at b1
        exact ⟨by simp [Ev.mkBy, Ev.delBy, PC.between] at b1 ⊢; omega, notput hpc id nofun⟩
      case losPut hpc _ =>
        rw [State.go_pc]; rw [hpc] at b1
        exact ⟨by simp [Ev.mkBy, Ev.delBy, PC.between] at b1 ⊢; omega, .inl trivial⟩
      case losGet hpc _ =>
        rw [State.go_pc]; rw [hpc] at b1
        exact ⟨by simp [Ev.mkBy, Ev.delBy, PC.between] at b1 ⊢; omega, notput hpc id nofun⟩
      case chk k' a st now hpc =>
        rw [State.go_pc]; rw [hpc] at b1
        exact ⟨by simp [Ev.mkBy, Ev.delBy, PC.between] at b1 ⊢; omega, notput hpc id nofun⟩
      case chkNone hpc _ =>
        rw [State.go_pc]; rw [hpc] at b1
        exact ⟨by simp [Ev.mkBy, Ev.delBy, PC.between] at b1 ⊢; omega, .inl trivial⟩
      case chkDead k' a now st x hpc hx hd =>
        rw [State.go_pc]; rw [hpc] at b1 h4
        have h5 := h4.losLike
        cases st
        case los => exact ⟨by simp [Ev.mkBy, Ev.delBy, PC.between, Site.dead] at b1 ⊢; omega, notput hpc id nofun⟩
        all_goals exact h5.elim
      case chkLive k' a now st x hpc hx hd =>
        rw [State.go_pc]; rw [hpc] at b1 h4
        have h5 := h4.losLike
        cases st
        case los => exact ⟨by simp [Ev.mkBy, Ev.delBy, PC.between, Site.live] at b1 ⊢; omega, .inl trivial⟩
        all_goals exact h5.elim
      case cadDel k' a aft hpc hm =>
        rw [State.go_pc]; rw [hpc] at b1 h4
        have h5 := h4.losLike
        cases aft with
        | los k'' v' d' a' =>
          obtain ⟨c1, c2, c3, _⟩ := h4
          cases c3
          refine ⟨?_, notput hpc id nofun⟩
          have h6 : (afterDel c a (.los k'' v d a')).between = 0 := by unfold afterDel; split <;> rfl
          rw [h6]
          simp [Ev.mkBy, Ev.delBy, PC.between] at b1 ⊢; omega
        | _ => exact h5.elim
      case cadFail k' a aft hpc hm =>
        rw [State.go_pc]; rw [hpc] at b1 h4
        have h5 := h4.losLike
        cases aft with
        | los k'' v' d' a' =>
          exact ⟨by simp [Ev.mkBy, Ev.delBy, PC.between, After.next] at b1 ⊢; omega, .inl trivial⟩
        | _ => exact h5.elim
      case cbNone hpc _ =>
        rw [State.go_pc]; rw [hpc] at b1
        exact ⟨by simp [Ev.mkBy, Ev.delBy, PC.between] at b1 ⊢; omega, .inl trivial⟩
      case cbCall hpc _ =>
        rw [State.go_pc]; rw [hpc] at b1
        exact ⟨by simp [Ev.mkBy, Ev.delBy, PC.between] at b1 ⊢; omega, notput hpc id nofun⟩
      case cbPanic hpc =>
        rw [State.go_pc]; rw [hpc] at b1
        exact ⟨by simp [Ev.mkBy, Ev.delBy, PC.between] at b1 ⊢; omega, .inl trivial⟩
      case cbOk aft hpc =>
        rw [State.go_pc]; rw [hpc] at b1 h4
        have h5 := h4.losLike
        cases aft with
        | los k'' v' d' a' =>
          exact ⟨by simp [Ev.mkBy, Ev.delBy, PC.between, After.next] at b1 ⊢; omega, notput hpc id nofun⟩
        | _ => exact h5.elim
      case ret => exact absurd State.go_pc hidle
      case call => exact absurd (by assumption) hni
      all_goals
        rw [(by assumption : s.pc j = _)] at h4
        exact h4.losLike.elim
    · rw [hst.other hj] at hidle ⊢
      obtain ⟨b1, b2⟩ := ih j p k v d hcur' hidle
      refine ⟨?_, keep b2 ?_⟩
      · have h5 : Ev.mkBy j e = false := by
          have := hst.tid
          cases e
          case mk => simp only [Ev.tid] at this; subst this; simp [Ev.mkBy, Ne.symm hj]
          all_goals rfl
        simp [h5]; omega
      · rintro k' a rfl
        exact hj hst.tid

/-- `LoadOrStore` makes a further try only if another thread has stored the key since (and at most one more for the entry it found). -/
theorem Exec.attempts (h : Exec c tr hist s) {w : V} {now dd : Int} (hn : tr[n]? = some (.mk i a w now dd)) (hc : CallAt tr i p (.loadOrStore k v d) n) :
    count (Ev.mkBy i) (tr.take n) p ≤ count (Ev.putOther i k) (tr.take n) p + 1 := by
  obtain ⟨s0, inp, s1, h1, h2, -⟩ := h.at hn
  have hp : p ≤ (tr.take n).length := by
    have := get_lt hn; have := hc.lt; simp; omega
  have hcur : Cur (tr.take n) i p (.loadOrStore k v d) :=
    ⟨get_take.2 ⟨hc.lt, hc.at_⟩, fun m op' hm hx => hc.only m op' hm (get_take.1 hx).1 (get_take.1 hx).2⟩
  have h3 : Step c _ s0 i s1 (.mk i a w now dd) := step_Step h2
  have hpc : s0.pc i ≠ .idle := by cases h3 <;> rw [(by assumption : s0.pc i = _)] <;> nofun
  obtain ⟨b1, b2⟩ := h1.tries i p k v d hcur hpc
  have h4 := h1.know i hpc
  obtain ⟨p', op', h5, h6⟩ := h4
  obtain ⟨rfl, rfl⟩ := hc.cur h5
  have h7 : (s0.pc i).between = 0 ∧ ¬ (s0.pc i).isDone := by
    have := h6.losLike
    cases h3
    case losMk hpc => rw [hpc]; exact ⟨rfl, id⟩
    all_goals (rw [(by assumption : s0.pc i = _)] at this; exact this.elim)
  rw [h7.1] at b1
  have h8 := h1.del_put (k := k) p' hp
  have h9 : count (Ev.delBy i k) (tr.take n) p' ≤ count (Ev.delOn k) (tr.take n) p' := by
    refine count_le fun e he => ?_
    cases e
    case del => simp [Ev.delBy, Ev.delOn] at he ⊢; exact he.1
    all_goals cases he
  have h10 : count (Ev.putOn k) (tr.take n) p' ≤ count (Ev.putOther i k) (tr.take n) p' := by
    have := b2.resolve_left h7.2
    refine List.countP_mono_left fun e he hx => ?_
    obtain ⟨x, hx1, hx2⟩ := List.mem_iff_getElem.1 he
    have hx3 : (tr.take n)[p' + x]? = some e := by
      rw [← hx2, ← List.getElem?_drop]; exact List.getElem?_eq_getElem hx1
    cases e
    case put j k' a' =>
      simp [Ev.putOn, Ev.putOther] at hx ⊢
      refine ⟨hx, ?_⟩
      rintro rfl
      rcases Nat.eq_zero_or_pos x with rfl | hpos
      · have := hcur.1
        rw [Nat.add_zero] at hx3
        rw [hx3] at this
        cases this
      · exact this _ _ _ (by omega) hx3
    all_goals cases hx
  omega

end Verif.SyncCache
