import Verif.SyncCache.Own
import Mathlib.Data.List.Induction
/-!
# Entries come once and go once; callbacks
-/
namespace Verif.SyncCache
open Verif.Refresh (get_snoc get_lt get_keep get_new)
variable {K V : Type} [DecidableEq K]
variable {c : Cfg V} {tr : List (Ev K V)} {hist : List (Map K)} {s s' : State K V} {e : Ev K V} {i j p n m z : Nat} {op : Op K V} {k k' : K} {a : Nat}

/-- The event may change what the map holds for `k`. -/
def Ev.touches (k : K) : Ev K V → Prop
  | .put _ k' _ | .del _ k' _ => k' = k
  | .wipe _ => True
  | _ => False

theorem Ev.touches.onKey {x : Option Nat} (h : ¬ e.touches k) : e.onKey k x = x := by
  cases e <;> simp_all [Ev.touches, Ev.onKey]

/-- Who put the entry there. -/
theorem content_src (h : content tr k = some a) : ∃ (n i : Nat), tr[n]? = some (.put i k a) ∧
    ∀ (m : Nat) (e : Ev K V), n < m → tr[m]? = some e → ¬ e.touches k := by
  induction tr using List.reverseRecOn with
  | nil => cases h
  | append_singleton tr e ih =>
    rw [content_snoc] at h
    by_cases ht : e.touches k
    · have : ∃ i, e = .put i k a := by
        cases e <;> simp_all [Ev.touches, Ev.onKey]
      obtain ⟨i, rfl⟩ := this
      refine ⟨tr.length, i, get_new, fun m e' hm hc => ?_⟩
      have := get_lt hc; simp at this; omega
    · rw [Ev.touches.onKey ht] at h
      obtain ⟨n, i, h1, h2⟩ := ih h
      refine ⟨n, i, get_keep h1, fun m e' hm hc => ?_⟩
      rcases get_snoc.1 hc with hc' | ⟨_, rfl⟩
      · exact h2 m e' hm hc'
      · exact ht

theorem content_keep (h : tr[n]? = some (.put i k a)) (hz : n < z)
    (hno : ∀ (m : Nat) (e : Ev K V), n < m → m < z → tr[m]? = some e → ¬ e.touches k) : content (tr.take z) k = some a := by
  induction z with
  | zero => omega
  | succ z ih =>
    rcases Nat.lt_or_ge n z with h1 | h1
    · have := ih h1 (fun m e hm hz => hno m e hm (by omega))
      cases he : tr[z]? with
      | none =>
        have hle : tr.length ≤ z := List.getElem?_eq_none_iff.1 he
        rw [List.take_of_length_le (by omega)]
        rwa [List.take_of_length_le hle] at this
      | some e => rw [take_next he, content_snoc, this]; exact Ev.touches.onKey (hno z e h1 (by omega) he)
    · have : n = z := by omega
      subst this
      rw [take_next h, content_snoc]
      simp [Ev.onKey]

theorem content_same (hz : z ≤ m) (hno : ∀ (n : Nat) (e : Ev K V), z ≤ n → n < m → tr[n]? = some e → ¬ e.touches k) :
    content (tr.take m) k = content (tr.take z) k := by
  induction m with
  | zero => have : z = 0 := by omega
            subst this; rfl
  | succ m ih =>
    rcases Nat.lt_or_ge m z with h1 | h1
    · have : z = m + 1 := by omega
      rw [this]
    · rw [← ih h1 (fun n e a b => hno n e a (by omega))]
      cases he : tr[m]? with
      | none =>
        have hle : tr.length ≤ m := List.getElem?_eq_none_iff.1 he
        rw [List.take_of_length_le (by omega), List.take_of_length_le hle]
      | some e => rw [take_next he, content_snoc]; exact Ev.touches.onKey (hno m e h1 (by omega) he)

/-- An entry is put by the thread that made it, as its next entry. -/
theorem Exec.put_src (h : Exec c tr hist s) (hn : tr[n]? = some (.put i k a)) : ∃ (m : Nat) (v : V) (now d : Int), m < n ∧
    tr[m]? = some (.mk i a v now d) ∧ ∀ (x : Nat) (k' : K) (a' : Nat), m < x → x < n → tr[x]? ≠ some (.put i k' a') := by
  obtain ⟨s0, inp, s1, h1, h2, -⟩ := h.at hn
  have h3 : Step c _ s0 i s1 _ := step_Step h2
  generalize he : (Ev.put i k a : Ev K V) = e at h3
  have key : ∀ {p : Nat} {v : V} {d : Int}, Mine (tr.take n) i p a v d → ∃ (m : Nat) (v : V) (now d : Int), m < n ∧
      tr[m]? = some (.mk i a v now d) ∧ ∀ (x : Nat) (k' : K) (a' : Nat), m < x → x < n → tr[x]? ≠ some (.put i k' a') := by
    rintro p v d ⟨m, now, b1, b2, b3⟩
    have b2' := get_take.1 b2
    exact ⟨m, v, now, d, b2'.1, b2'.2, fun x k' a' hx hx' hc => b3 x k' a' hx (get_take.2 ⟨hx', hc⟩)⟩
  cases h3 <;> cases he
  case stPut hpc =>
    obtain ⟨p, op, _, h5⟩ := h1.know i (by rw [hpc]; nofun)
    rw [hpc] at h5
    obtain ⟨v, d, _, h6⟩ := h5
    exact key h6
  case losPut _ hpc =>
    obtain ⟨p, op, _, h5⟩ := h1.know i (by rw [hpc]; nofun)
    rw [hpc] at h5
    exact key h5.2

/-- An entry is put at most once. -/
theorem Exec.put_once (h : Exec c tr hist s) {n' i' : Nat} (hn : tr[n]? = some (.put i k a)) (hn' : tr[n']? = some (.put i' k' a)) : n = n' := by
  obtain ⟨m, v, now, d, h1, h2, h3⟩ := h.put_src hn
  obtain ⟨m', v', now', d', h1', h2', h3'⟩ := h.put_src hn'
  have hm := h.glob.once _ _ _ _ _ _ _ _ _ _ _ h2 h2'
  subst hm
  rw [h2'] at h2
  injection h2 with h2
  injection h2 with hi
  subst hi
  rcases Nat.lt_trichotomy n n' with h4 | h4 | h4
  · exact absurd hn (h3' n k a h1 h4)
  · exact h4
  · exact absurd hn' (h3 n' k' a h1' h4)

/-- Entries in the map exist. -/
theorem Exec.alloc (h : Exec c tr hist s) (hc : content (tr.take z) k = some a) : ∃ x, s.ents[a]? = some x := by
  obtain ⟨n, i, h1, _⟩ := content_src hc
  obtain ⟨m, v, now, d, _, h3, _⟩ := h.put_src (get_take.1 h1).2
  have := h.glob.bound _ _ _ _ _ _ h3
  exact ⟨_, List.getElem?_eq_getElem this⟩

/-- An entry does not come back. -/
theorem Exec.between (h : Exec c tr hist s) {z1 z2 z3 : Nat} (h1 : content (tr.take z1) k = some a) (h3 : content (tr.take z3) k' = some a)
    (h12 : z1 ≤ z2) (h23 : z2 ≤ z3) : k' = k ∧ content (tr.take z2) k = some a := by
  obtain ⟨n, i, a1, a2⟩ := content_src h1
  obtain ⟨n', i', b1, b2⟩ := content_src h3
  have a1' := get_take.1 a1
  have b1' := get_take.1 b1
  have hnn := h.put_once a1'.2 b1'.2
  subst hnn
  have hk : k' = k := by
    have := a1'.2
    rw [b1'.2] at this
    injection this with this
    injection this
  subst hk
  exact ⟨rfl, content_keep b1'.2 (by omega) fun m e hm hz hc => b2 m e hm (get_take.2 ⟨by omega, hc⟩)⟩

theorem Exec.gone (h : Exec c tr hist s) {z1 z2 z3 : Nat} (h1 : content (tr.take z1) k = some a) (h2 : content (tr.take z2) k ≠ some a)
    (h12 : z1 ≤ z2) (h23 : z2 ≤ z3) : content (tr.take z3) k' ≠ some a :=
  fun h3 => h2 (h.between h1 h3 h12 h23).2

/-- A removal. -/
theorem Exec.del_at (h : Exec c tr hist s) (hn : tr[n]? = some (.del i k a)) : content (tr.take n) k = some a := by
  obtain ⟨s0, inp, s1, h1, h2, -⟩ := h.at hn
  have h3 : Step c _ s0 i s1 _ := step_Step h2
  generalize he : (Ev.del i k a : Ev K V) = e at h3
  cases h3 <;> cases he
  all_goals (rw [← h1.glob.map]; assumption)

/-- An entry is removed at most once. -/
theorem Exec.del_once (h : Exec c tr hist s) {n' i' : Nat} (hn : tr[n]? = some (.del i k a)) (hn' : tr[n']? = some (.del i' k' a)) : n = n' := by
  have key : ∀ {n n' i i' : Nat} {k k' : K}, tr[n]? = some (.del i k a) → tr[n']? = some (.del i' k' a) → ¬ n < n' := by
    intro n n' i i' k k' hn hn' hlt
    refine h.gone (h.del_at hn) (z2 := n + 1) ?_ (by omega) (by omega) (h.del_at hn')
    rw [take_next hn, content_snoc]
    simp [Ev.onKey]
  have h1 := key hn hn'
  have h2 := key hn' hn
  omega

/-! ## Callbacks -/

/-- A removal or a callback. -/
def Ev.isDel : Ev K V → Prop
  | .del _ _ _ | .cb _ _ => True
  | _ => False

/-- Between `n` and `m` thread `i` neither removes an entry nor calls the callback. -/
def NoDel (tr : List (Ev K V)) (i n m : Nat) : Prop :=
  ∀ (x : Nat) (e : Ev K V), n < x → x < m → tr[x]? = some e → e.tid = i → ¬ e.isDel

/-- The removal of `a` at `n` is followed by its callback. -/
def Matched (tr : List (Ev K V)) (i n a : Nat) : Prop :=
  ∃ m v, n < m ∧ tr[m]? = some (.cb i v) ∧ Made tr a v ∧ NoDel tr i n m

/-- The callback to come. -/
def PC.owes : PC K V → Option Nat
  | .cbCall a _ => some a
  | .chk _ a .lad => some a
  | .chkExp _ a _ .lad => some a
  | _ => none

theorem enter_owes : (enter op : PC K V).owes = none := by cases op <;> rfl
theorem next_owes {aft : After K V} {b : Bool} : (aft.next b).owes = none := by
  rcases aft with _ | _ | _ | _ | _ | _ | _ | _ | _ <;> cases b <;> rfl
theorem visit_owes {it : Iter K} : (it.visit k a : PC K V).owes = none := by
  unfold Iter.visit; split <;> rfl

theorem afterDel_owes {aft : After K V} (hb : c.hasCb = true) : (afterDel c a aft).owes = some a := by
  simp [afterDel, hb, PC.owes]

theorem NoDel.sn (h : NoDel tr i n m) (hm : m ≤ tr.length) : NoDel (tr ++ [e]) i n m := by
  intro x e' h1 h2 h3
  rcases get_snoc.1 h3 with h4 | ⟨h4, _⟩
  · exact h x e' h1 h2 h4
  · omega

theorem NoDel.more (h : NoDel tr i n tr.length) (he : e.tid = i → ¬ e.isDel) : NoDel (tr ++ [e]) i n (tr ++ [e]).length := by
  intro x e' h1 h2 h3
  rcases get_snoc.1 h3 with h4 | ⟨h4, rfl⟩
  · exact h x e' h1 (get_lt h4) h4
  · exact he

theorem Matched.sn (h : Matched tr i n a) : Matched (tr ++ [e]) i n a := by
  obtain ⟨m, v, h1, h2, h3, h4⟩ := h
  exact ⟨m, v, h1, get_keep h2, h3.snoc, h4.sn (Nat.le_of_lt (get_lt h2))⟩

/-- The account of thread `i`. -/
structure Acc (tr : List (Ev K V)) (i : Nat) (o : Option Nat) : Prop where
  dels : ∀ (n : Nat) (k : K) (a : Nat), tr[n]? = some (.del i k a) → Matched tr i n a ∨ (o = some a ∧ NoDel tr i n tr.length)
  owed : ∀ a, o = some a → ∃ n k, tr[n]? = some (.del i k a) ∧ NoDel tr i n tr.length
  cbs : ∀ (m : Nat) (v : V), tr[m]? = some (.cb i v) → ∃ n k a, n < m ∧ tr[n]? = some (.del i k a) ∧ Made tr a v ∧ NoDel tr i n m

theorem Acc.sn {o : Option Nat} (h : Acc tr i o) (he : e.tid = i → ¬ e.isDel) : Acc (tr ++ [e]) i o := by
  refine ⟨?_, ?_, ?_⟩
  · intro n k a hc
    rcases get_snoc.1 hc with hc' | ⟨_, rfl⟩
    · rcases h.dels n k a hc' with h1 | ⟨h1, h2⟩
      · exact .inl h1.sn
      · exact .inr ⟨h1, h2.more he⟩
    · exact absurd trivial (he rfl)
  · intro a ho
    obtain ⟨n, k, h1, h2⟩ := h.owed a ho
    exact ⟨n, k, get_keep h1, h2.more he⟩
  · intro m v hc
    rcases get_snoc.1 hc with hc' | ⟨_, rfl⟩
    · obtain ⟨n, k, a, h1, h2, h3, h4⟩ := h.cbs m v hc'
      exact ⟨n, k, a, h1, get_keep h2, h3.snoc, h4.sn (Nat.le_of_lt (get_lt hc'))⟩
    · exact absurd trivial (he rfl)

theorem Acc.del (h : Acc tr i none) : Acc (tr ++ [.del i k a]) i (some a) := by
  have hf : NoDel (tr ++ [.del i k a]) i tr.length (tr ++ [Ev.del i k a]).length := by
    intro x e h1 h2 h3
    simp at h2; omega
  refine ⟨?_, ?_, ?_⟩
  · intro n k' a' hc
    rcases get_snoc.1 hc with hc' | ⟨rfl, h'⟩
    · rcases h.dels n k' a' hc' with h1 | ⟨h1, h2⟩
      · exact .inl h1.sn
      · cases h1
    · injection h' with _ _ h'
      exact .inr ⟨by rw [h'], hf⟩
  · rintro a' ⟨⟩
    exact ⟨tr.length, k, get_new, hf⟩
  · intro m v hc
    rcases get_snoc.1 hc with hc' | ⟨_, h'⟩
    · obtain ⟨n, k, a, h1, h2, h3, h4⟩ := h.cbs m v hc'
      exact ⟨n, k, a, h1, get_keep h2, h3.snoc, h4.sn (Nat.le_of_lt (get_lt hc'))⟩
    · cases h'

theorem Acc.cb {v : V} (h : Acc tr i (some a)) (hv : Made tr a v) : Acc (tr ++ [.cb i v]) i none := by
  refine ⟨?_, nofun, ?_⟩
  · intro n k' a' hc
    rcases get_snoc.1 hc with hc' | ⟨_, h'⟩
    · rcases h.dels n k' a' hc' with h1 | ⟨h1, h2⟩
      · exact .inl h1.sn
      · cases h1
        exact .inl ⟨tr.length, v, get_lt hc', get_new, hv.snoc, h2.sn (Nat.le_refl _)⟩
    · cases h'
  · intro m v' hc
    rcases get_snoc.1 hc with hc' | ⟨rfl, h'⟩
    · obtain ⟨n, k, a, h1, h2, h3, h4⟩ := h.cbs m v' hc'
      exact ⟨n, k, a, h1, get_keep h2, h3.snoc, h4.sn (Nat.le_of_lt (get_lt hc'))⟩
    · injection h' with _ h'
      subst h'
      obtain ⟨n, k, h1, h2⟩ := h.owed a rfl
      exact ⟨n, k, a, get_lt h1, get_keep h1, hv.snoc, h2.sn (Nat.le_refl _)⟩

theorem Exec.acc (h : Exec c tr hist s) (hb : c.hasCb = true) : ∀ i, Acc tr i (s.pc i).owes := by
  induction h with
  | nil => exact fun i => ⟨fun n k a h => by simp at h, nofun, fun m v h => by simp at h⟩
  | snoc h1 h2 ih =>
    rename_i tr hist s i inp s' e
    intro j
    have hst := step_Step h2
    have hg := h1.glob
    by_cases hj : j = i
    · subst hj
      have hi := ih j
      have alloc : ∀ {a : Nat}, (s.pc j).owes = some a → s.ents[a]? ≠ none := by
        intro a ho
        rw [ho] at hi
        obtain ⟨n, k, b1, _⟩ := hi.owed a rfl
        obtain ⟨x, hx⟩ := h1.alloc (h1.del_at b1)
        rw [hx]; nofun
      have sn : ∀ {pc : PC K V}, s.pc j = pc → ¬ e.isDel → (s'.pc j).owes = pc.owes → Acc (tr ++ [e]) j (s'.pc j).owes := by
        rintro pc rfl h4 h5
        rw [h5]; exact hi.sn (fun _ => h4)
      cases hst
      case delSome hpc hm => rw [State.go_pc, afterDel_owes hb]; rw [hpc] at hi; exact hi.del
      case ladSome hpc hm => rw [State.go_pc]; rw [hpc] at hi; exact hi.del
      case cadDel hpc hm => rw [State.go_pc, afterDel_owes hb]; rw [hpc] at hi; exact hi.del
      case cbCall a aft x hpc hx => rw [State.go_pc]; rw [hpc] at hi; exact hi.cb (hg.made a x hx)
      case call op hpc => exact sn hpc (fun h => h) (by rw [State.go_pc, enter_owes]; rfl)
      case cadFail hpc _ => exact sn hpc (fun h => h) (by rw [State.go_pc, next_owes]; rfl)
      case cbOk hpc => exact sn hpc (fun h => h) (by rw [State.go_pc, next_owes]; rfl)
      case iterSome hpc _ _ _ => exact sn hpc (fun h => h) (by rw [State.go_pc, visit_owes]; rfl)
      case cbNone hpc hx => exact absurd hx (alloc (by rw [hpc]; rfl))
      case ldSome k x a hpc hm => exact sn hpc (fun h => h) (by rw [State.go_pc]; cases x <;> rfl)
      case chk k a st now hpc => exact sn hpc (fun h => h) (by rw [State.go_pc]; cases st <;> rfl)
      case chkNone k a now st hpc hx =>
        cases st
        case lad => exact absurd hx (alloc (by rw [hpc]; rfl))
        all_goals exact sn hpc (fun h => h) (by rw [State.go_pc]; rfl)
      case chkDead k a now st x hpc hx hd =>
        cases st
        case lad => exact sn hpc (fun h => h) (by rw [State.go_pc]; exact afterDel_owes hb)
        all_goals exact sn hpc (fun h => h) (by rw [State.go_pc]; rfl)
      case chkLive k a now st x hpc hx hd =>
        cases st
        case lad => exact sn hpc (fun h => h) (by rw [State.go_pc]; exact afterDel_owes hb)
        all_goals exact sn hpc (fun h => h) (by rw [State.go_pc]; rfl)
      all_goals exact sn (by assumption) (fun h => h) (by rw [State.go_pc]; rfl)
    · rw [hst.other hj]
      exact (ih j).sn (by rw [hst.tid]; exact fun h => absurd h.symm hj)

/-- Without a callback there are no callbacks. -/
theorem Exec.noCb (h : Exec c tr hist s) (hb : c.hasCb = false) : (∀ i, (∀ a aft, s.pc i ≠ .cbCall a aft) ∧ ∀ aft, s.pc i ≠ .cbRun aft) ∧
    ∀ (n i : Nat) (v : V), tr[n]? ≠ some (.cb i v) := by
  induction h with
  | nil => exact ⟨fun i => ⟨nofun, nofun⟩, fun n i v h => by simp at h⟩
  | snoc h1 h2 ih =>
    rename_i tr hist s i inp s' e
    have hst := step_Step h2
    have hnext : ∀ {aft : After K V} {b : Bool}, (∀ a aft', aft.next b ≠ .cbCall a aft') ∧ ∀ aft', aft.next b ≠ .cbRun aft' := by
      intro aft b
      rcases aft with _ | _ | _ | _ | _ | _ | _ | _ | _ <;> cases b <;> exact ⟨nofun, nofun⟩
    have hdel : ∀ {aft : After K V} {a0 : Nat}, (∀ a aft', afterDel c a0 aft ≠ .cbCall a aft') ∧ ∀ aft', afterDel c a0 aft ≠ .cbRun aft' := by
      intro aft a0
      simp only [afterDel, hb]
      exact hnext
    refine ⟨fun j => ?_, fun n j v hc => ?_⟩
    · by_cases hj : j = i
      · subst hj
        obtain ⟨p1, p2⟩ := ih.1 j
        cases hst
        case call op hpc => rw [State.go_pc]; cases op <;> exact ⟨nofun, nofun⟩
        case cadFail hpc _ => rw [State.go_pc]; exact hnext
        case cbOk hpc => rw [State.go_pc]; exact hnext
        case delSome hpc _ => rw [State.go_pc]; exact hdel
        case cadDel hpc _ => rw [State.go_pc]; exact hdel
        case cbCall hpc _ => exact absurd hpc (p1 _ _)
        case iterSome hpc _ _ _ => rw [State.go_pc]; unfold Iter.visit; split <;> exact ⟨nofun, nofun⟩
        case chkDead k a now st x hpc hx hd =>
          rw [State.go_pc]
          cases st
          case lad => exact hdel
          all_goals exact ⟨nofun, nofun⟩
        case chkLive k a now st x hpc hx hd =>
          rw [State.go_pc]
          cases st
          case lad => exact hdel
          all_goals exact ⟨nofun, nofun⟩
        all_goals (rw [State.go_pc]; exact ⟨nofun, nofun⟩)
      · rw [hst.other hj]; exact ih.1 j
    · rcases get_snoc.1 hc with hc' | ⟨_, h'⟩
      · exact ih.2 n j v hc'
      · cases hst <;> cases h'
        rename_i hpc _
        exact (ih.1 _).1 _ _ hpc

end Verif.SyncCache
