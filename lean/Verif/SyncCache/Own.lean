import Verif.SyncCache.Inv
/-!
# Every thread knows what `Know` says
-/
namespace Verif.SyncCache
open Verif.Refresh (get_snoc get_lt get_keep get_new)
variable {K V : Type} [DecidableEq K]
variable {c : Cfg V} {tr : List (Ev K V)} {hist : List (Map K)} {s s' : State K V} {e : Ev K V} {i j p : Nat} {op : Op K V} {k : K} {a : Nat}

theorem regOf_snoc : regOf (tr ++ [e]) = e.onReg (regOf tr) := by simp [regOf]

theorem Exec.regOf (h : Exec c tr hist s) : s.reg = SyncCache.regOf tr := by
  induction h with
  | nil => rfl
  | snoc h1 h2 ih => rw [regOf_snoc, ← ih]; cases step_Step h2 <;> rfl

theorem enter_know {e : Ev K V} (hp : p = tr.length) : Know c (tr ++ [e]) i p op (enter op) := by
  have hn : ∀ {n : Nat} {e' : Ev K V}, p < n → (tr ++ [e])[n]? ≠ some e' := by
    intro n e' h1 h2
    have := get_lt h2
    simp at this; omega
  have h1 : NoMap (tr ++ [e]) i p := fun n e' h1 h2 => absurd h2 (hn h1)
  cases op
  case load => exact ⟨rfl, h1⟩
  case compareValueAndDelete => exact ⟨rfl, h1⟩
  case clear => exact ⟨rfl, fun n k a h => hn h⟩
  case range => exact ⟨rfl, trivial, fun n k a h => hn h⟩
  case tick => exact ⟨rfl, fun n k a h => hn h⟩
  all_goals exact rfl

theorem AfterK.next {aft : After K V} (h : AfterK c tr i p op aft) : Know c tr i p op (aft.next true) := by
  cases aft with
  | user => obtain ⟨k, a, n, rfl, h2, h3⟩ := h; exact ⟨n, h2, h3⟩
  | loadExp => obtain ⟨k, a, rfl, h2⟩ := h; exact .inr ⟨a, h2⟩
  | cvdExp => obtain ⟨⟨k, v, a, rfl, h2⟩, h3⟩ := h; exact ⟨h3, .inr ⟨a, .inl h2⟩⟩
  | cvd => obtain ⟨k, v, n, a, w, rfl, h2⟩ := h; exact ⟨n, a, w, h2⟩
  | los k v d a => exact h
  | iter it => exact h
  | del => obtain ⟨k, n, a, rfl, h2, h3⟩ := h; exact .inr ⟨n, a, h2, h3⟩
  | lad r =>
    cases r with
    | none => obtain ⟨k, n, a, rfl, h2⟩ := h; exact .inr ⟨n, a, h2⟩
    | some a => obtain ⟨k, n, rfl, h2⟩ := h; exact ⟨n, h2⟩

theorem AfterK.del {aft : After K V} (h : AfterK c tr i p op aft) : Know c tr i p op (afterDel c a aft) := by
  unfold afterDel
  split
  · exact h
  · exact h.next

theorem Checked.take {φ : Int → Int → Prop} (h : Checked tr i p k a φ) : Checked ((tr ++ [e]).take tr.length) i p k a φ := by
  rw [take_all]; exact h

theorem Checked.left {φ : Int → Int → Prop} (h : Checked tr i p k a φ) (hc : content ((tr ++ [e]).take (tr.length + 1)) k ≠ some a) :
    Left (tr ++ [e]) p k a := by
  obtain ⟨z, x, y, now, h1, h2, h3, h4, h5, h6, h7, h8⟩ := h
  have := get_lt h7
  exact ⟨z, tr.length + 1, h1, by omega, by simp, by rw [take_snoc (by omega)]; exact h5, hc⟩

/-- After the removal in `CompareAndDelete`. -/
theorem CadK.del {aft : After K V} (h : CadK c tr i p op k a aft) (hp : p < tr.length) :
    AfterK c (tr ++ [.del i k a]) i p op aft := by
  have hl : ∀ {φ : Int → Int → Prop}, Checked tr i p k a φ → Left (tr ++ [.del i k a]) p k a := fun h =>
    h.left (by rw [take_full, content_snoc]; simp [Ev.onKey])
  cases aft with
  | user => exact ⟨k, a, tr.length, h, hp, get_new⟩
  | loadExp => exact ⟨k, a, h.1, h.2.sn, hl h.2⟩
  | cvdExp =>
    obtain ⟨⟨v, rfl⟩, h2, h3⟩ := h
    refine ⟨⟨k, v, a, rfl, h2.sn, hl h2⟩, fun n k' a' hn hc => ?_⟩
    rcases get_snoc.1 hc with hc' | ⟨_, h'⟩
    · exact absurd trivial (h3 n _ hn hc' rfl)
    · injection h' with _ h4 h5; subst h4; subst h5; exact h2.sn
  | cvd =>
    obtain ⟨v, w, rfl, h2, h3, h4, h5⟩ := h
    exact ⟨k, v, tr.length, a, w, rfl, hp, get_new, h2.take, h4.snoc, h5⟩
  | los k' v d a' => obtain ⟨rfl, rfl, h, _⟩ := h; exact h
  | iter it =>
    have h' := h.1.sn' (e := .del i k a) (by intros; nofun)
    have hg : Gone (tr ++ [.del i k a]) p k a := .now hp (by rw [content_snoc]; simp [Ev.onKey])
    refine ⟨h'.ok, h'.clk, h'.lt, h'.le, (List.nodup_append.1 h'.nodup).2.1, ?_, fun n k a hn hc hm => h'.fresh n k a hn hc (by simp_all)⟩
    intro k' a' hc
    rcases h'.all k' a' hc with h1 | h1 | h1
    · exact .inl h1
    · exact .inr (.inl h1)
    · simp only [List.mem_singleton, Prod.mk.injEq] at h1
      obtain ⟨rfl, rfl⟩ := h1
      exact .inr (.inl (.of_gone hg))
  | del => exact h.elim
  | lad _ => exact h.elim

/-- `cur` is done. -/
theorem IterP.handled {it : Iter K} (h : IterP tr i p op it [(k, a)]) (hg : Handled tr i p k a it.kind) : IterP tr i p op it [] := by
  refine ⟨h.ok, h.clk, h.lt, h.le, (List.nodup_append.1 h.nodup).2.1, ?_, fun n k a hn hc hm => h.fresh n k a hn hc (by simp_all)⟩
  intro k' a' hc
  rcases h.all k' a' hc with h1 | h1 | h1
  · exact .inl h1
  · exact .inr (.inl h1)
  · simp only [List.mem_singleton, Prod.mk.injEq] at h1
    obtain ⟨rfl, rfl⟩ := h1
    exact .inr (.inl hg)

/-- After the failure of `CompareAndDelete`. -/
theorem CadK.fail {aft : After K V} (h : CadK c tr i p op k a aft) (hp : p < tr.length) (hc : content tr k ≠ some a) :
    Know c (tr ++ [.tau i]) i p op (aft.next false) := by
  have hm : (Ev.tau i : Ev K V).tid = i → (Ev.tau i : Ev K V).mild := fun _ => trivial
  have hg : Gone (tr ++ [.tau i]) p k a := .new hp hc
  have hl : ∀ {φ : Int → Int → Prop}, Checked tr i p k a φ → Left (tr ++ [.tau i]) p k a := fun h =>
    h.left (by rw [take_full, content_snoc]; exact hc)
  have h' := h.sn hm
  cases aft with
  | user => cases h; exact hg
  | loadExp => obtain ⟨rfl, h2⟩ := h'; exact .inr ⟨a, h2, hl h.2⟩
  | cvdExp => obtain ⟨⟨v, rfl⟩, h2, h3⟩ := h'; exact ⟨h3.dels, .inr ⟨a, .inl ⟨h2, hl h.2.1⟩⟩⟩
  | cvd =>
    obtain ⟨_, _, _, h0, _⟩ := h
    obtain ⟨v, w, rfl, h2, h3, h4, h5⟩ := h'
    exact ⟨h3.dels, .inr ⟨a, .inr ⟨w, h2, h4, .inr ⟨h5, hl h0⟩⟩⟩⟩
  | los k' v d a' =>
    obtain ⟨rfl, rfl, rfl, z, x, y, now, a1, a2, a3, a4, a5, a6, a7, a8, a9⟩ := h
    have := get_lt a7
    refine .inr ⟨z, x, y, tr.length, now, a1, a2, a3, a4, this, by simp, by rw [take_snoc (by omega)]; exact a5, get_keep a6, get_keep a7,
      by rw [take_snoc (by omega)]; exact a8, by rw [take_all]; exact hc, ?_⟩
    intro n e' hz hn hc
    rcases get_snoc.1 hc with hc' | ⟨h', rfl⟩
    · exact a9 n e' hz hc'
    · omega
  | iter it => exact h'.1.handled (.of_gone hg)
  | del => exact h'.elim
  | lad _ => exact h'.elim

/-- The check of `a`. -/
theorem SiteK.check {st : Site K V} {now : Int} {φ : Int → Int → Prop} (h : SiteK tr i p op k a st) (hc : Clk tr i p now)
    (hφ : φ (ms now) (expOf tr a)) : Checked (tr ++ [.seen i a]) i p k a φ := by
  have hw : Was tr p k (some a) := by
    cases st with
    | los v d => obtain ⟨_, z, h1, h2, h3, _⟩ := h; exact ⟨z, h1, h2, h3⟩
    | load => exact h.2.1
    | cvd v => exact h.2.1
    | lad => exact h.2.1
    | range it => exact h.2.1
  obtain ⟨z, h1, h2, h3⟩ := hw
  obtain ⟨x, h4, h5⟩ := hc
  exact ⟨z, x, tr.length, now, h1, h2, h4, get_lt h5, by rw [take_snoc h2]; exact h3, get_keep h5, get_new, by rw [take_all]; exact hφ⟩

theorem SiteK.live {st : Site K V} {now : Int} (h : SiteK tr i p op k a st) (hc : Clk tr i p now) (hφ : ¬ ms now > expOf tr a) :
    Know c (tr ++ [.seen i a]) i p op (st.live c k a) := by
  have hl : Live (tr ++ [.seen i a]) i p k a := h.check hc (by omega)
  have h' := h.sn (e := .seen i a) (fun _ => trivial)
  cases st with
  | load => obtain ⟨rfl, _⟩ := h'; exact hl
  | cvd v => exact ⟨h'.1, hl, h'.2.2⟩
  | los v d => obtain ⟨rfl, _⟩ := h'; exact .inl hl
  | lad =>
    obtain ⟨h0, h1, n, h2, h3⟩ := h'
    exact AfterK.del ⟨k, n, h0, h2, h3, hl⟩
  | range it => exact ⟨h'.1, hl, h'.2.2⟩

theorem SiteK.dead {st : Site K V} {now : Int} (h : SiteK tr i p op k a st) (hc : Clk tr i p now) (hφ : ms now > expOf tr a) :
    Know c (tr ++ [.seen i a]) i p op (st.dead c k a) := by
  have hl : Dead (tr ++ [.seen i a]) i p k a := h.check hc hφ
  have h' := h.sn (e := .seen i a) (fun _ => trivial)
  cases st with
  | load => exact ⟨h'.1, hl⟩
  | cvd v => exact ⟨⟨v, h'.1⟩, hl, h'.2.2⟩
  | los v d =>
    obtain ⟨h0, z, h1, h2, h3, h4⟩ := h
    obtain ⟨x, h5, h6⟩ := hc
    refine ⟨rfl, rfl, h0, z, x, tr.length, now, h1, h2, h5, get_lt h6, by rw [take_snoc h2]; exact h3, get_keep h6, get_new, by rw [take_all]; exact hφ, ?_⟩
    exact h4.sn (fun _ => trivial)
  | lad =>
    obtain ⟨h0, h1, n, h2, h3⟩ := h'
    exact AfterK.del ⟨k, n, a, h0, h2, h3, hl⟩
  | range it => exact ⟨h'.2.2, .inr hl⟩

/-- The next key of a loop: not there. -/
theorem IterP.skip {kind : Kind} {ks : List K} {st z : Nat} (h : IterP tr i p op ⟨kind, k :: ks, st⟩ []) (hz : st ≤ z) (hz' : z ≤ tr.length)
    (hc : content (tr.take z) k = none) : IterP tr i p op ⟨kind, ks, st⟩ [] := by
  have hlt : p < z := Nat.lt_of_lt_of_le h.lt hz
  refine ⟨h.ok, h.clk, h.lt, h.le, (List.nodup_cons.1 h.nodup).2, ?_, fun n k a hn hc hm => h.fresh n k a hn hc (by simp_all)⟩
  intro k' a' hk
  rcases h.all k' a' hk with h1 | h1 | h1
  · rcases List.mem_cons.1 h1 with rfl | h1
    · exact .inr (.inl (.of_gone ⟨z, hlt, hz', by rw [hc]; nofun⟩))
    · exact .inl h1
  · exact .inr (.inl h1)
  · simp at h1

/-- The next key of a loop: there. -/
theorem IterP.found {kind : Kind} {ks : List K} {st z : Nat} (h : IterP tr i p op ⟨kind, k :: ks, st⟩ []) (hz : st ≤ z) (hz' : z ≤ tr.length)
    (hc : content (tr.take z) k = some a) : IterP tr i p op ⟨kind, ks, st⟩ [(k, a)] := by
  have hlt : p < z := Nat.lt_of_lt_of_le h.lt hz
  refine ⟨h.ok, h.clk, h.lt, h.le, h.nodup, ?_, fun n k a hn hc => h.fresh n k a hn hc⟩
  intro k' a' hk
  rcases h.all k' a' hk with h1 | h1 | h1
  · rcases List.mem_cons.1 h1 with rfl | h1
    · by_cases ha : a' = a
      · subst ha; exact .inr (.inr (by simp))
      · exact .inr (.inl (.of_gone ⟨z, hlt, hz', by rw [hc]; simp; exact fun h => ha h.symm⟩))
    · exact .inl h1
  · exact .inr (.inl h1)
  · simp at h1

theorem IterP.visit {kind : Kind} {ks : List K} {st z : Nat} (h : IterP tr i p op ⟨kind, k :: ks, st⟩ []) (hz : st ≤ z) (hz' : z ≤ tr.length)
    (hc : content (tr.take z) k = some a) : Know c tr i p op (Iter.visit ⟨kind, ks, st⟩ k a) := by
  have h' := h.found hz hz' hc
  have hw : Was tr p k (some a) := ⟨z, Nat.lt_of_lt_of_le h.lt hz, hz', hc⟩
  cases kind with
  | clear => exact ⟨h', .inl rfl⟩
  | trim now => exact ⟨rfl, hw, h'⟩
  | range => exact ⟨rfl, hw, h'⟩

/-- A loop is over. -/
theorem IterP.over {kind : Kind} {st : Nat} (h : IterP tr i p op ⟨kind, [], st⟩ []) : OpOut c tr i p op .unit := by
  have key : ∀ k a, content (tr.take (p + 1)) k = some a → Handled tr i p k a kind := by
    intro k a hc
    by_cases hs : content (tr.take st) k = some a
    · rcases h.all k a hs with h1 | h1 | h1
      · simp at h1
      · exact h1
      · simp at h1
    · exact .of_gone ⟨st, h.lt, h.le, hs⟩
  have hok := h.ok
  cases kind with
  | clear => cases hok; exact key
  | trim now =>
    cases hok
    obtain ⟨x, t, h1, h2, rfl⟩ := h.clk
    exact .inr ⟨x, t, h1, h2, key⟩
  | range => cases hok; exact .inr key

/-- Every thread knows what `Know` says. -/
theorem Exec.know (h : Exec c tr hist s) : ∀ i, s.pc i ≠ .idle → ∃ p op, Cur tr i p op ∧ Know c tr i p op (s.pc i) := by
  induction h with
  | nil => exact fun i h => absurd rfl h
  | snoc h1 h2 ih =>
    rename_i tr hist s i inp s' e
    intro j hj'
    have hg := h1.glob
    have hr := h1.regOf
    have hst := step_Step h2
    by_cases hj : j = i
    · subst hj
      have old : s.pc j ≠ .idle → e.mild → ∃ p op, p < tr.length ∧ Cur tr j p op ∧ Cur (tr ++ [e]) j p op ∧ Know c tr j p op (s.pc j) ∧
          Know c (tr ++ [e]) j p op (s.pc j) := by
        intro h3 h4
        obtain ⟨p, op, h5, h6⟩ := ih j h3
        have := get_lt h5.1
        exact ⟨p, op, this, h5, h5.sn (fun _ => h4), h6, h6.sn this (fun _ => h4)⟩
      have old' : s.pc j ≠ .idle → (∀ op, e ≠ .call j op) → ∃ p op, p < tr.length ∧ Cur (tr ++ [e]) j p op ∧ Know c tr j p op (s.pc j) := by
        intro h3 h4
        obtain ⟨p, op, h5, h6⟩ := ih j h3
        refine ⟨p, op, get_lt h5.1, ⟨get_keep h5.1, fun n op' hn hc => ?_⟩, h6⟩
        rcases get_snoc.1 hc with hc' | ⟨_, h'⟩
        · exact h5.2 n op' hn hc'
        · exact h4 op' h'.symm
      -- panics
      have panic : s.pc j ≠ .idle → e.mild → s'.pc j = .done .panicked → ∃ p op, Cur (tr ++ [e]) j p op ∧ Know c (tr ++ [e]) j p op (s'.pc j) := by
        intro h3 h4 h5
        obtain ⟨p, op, a1, a2, a3, a4, a5⟩ := old h3 h4
        refine ⟨p, op, a3, ?_⟩
        rw [h5]
        unfold Know OpOut
        trivial
      cases hst
      case call op hpc =>
        refine ⟨tr.length, op, ⟨get_new, fun n op' hn hc => ?_⟩, ?_⟩
        · have := get_lt hc; simp at this; omega
        · rw [State.go_pc]; exact enter_know rfl
      case ret => rw [State.go_pc] at hj'; exact absurd rfl hj'
      case stMk k v d now hpc =>
        obtain ⟨p, op, a1, a2, a3, a4, a5⟩ := old (by rw [hpc]; nofun) trivial
        rw [State.go_pc]; rw [hpc] at a4
        refine ⟨p, op, a3, v, d, a4, tr.length, now, a1, get_new, ?_⟩
        intro m k a' hm hc
        have := get_lt hc; simp at this; omega
      case stPut k a hpc =>
        obtain ⟨p, op, a1, a3, a4⟩ := old' (by rw [hpc]; nofun) (by nofun)
        rw [State.go_pc]; rw [hpc] at a4
        obtain ⟨v, d, rfl, n, now, b1, b2, b3⟩ := a4
        exact ⟨p, _, a3, a, n, tr.length, now, b1, get_lt b2, get_keep b2, get_new⟩
      case ldNone k x hpc hm =>
        obtain ⟨p, op, a1, a2, a3, a4, a5⟩ := old (by rw [hpc]; nofun) trivial
        rw [State.go_pc]; rw [hpc] at a5
        rw [hg.map] at hm
        refine ⟨p, op, a3, ?_⟩
        cases x with
        | none => obtain ⟨rfl, h⟩ := a5; exact .inl (.new a1 hm)
        | some v => obtain ⟨rfl, h⟩ := a5; exact ⟨h.dels, .inl (.new a1 hm)⟩
      case ldSome k x a hpc hm =>
        obtain ⟨p, op, a1, a2, a3, a4, a5⟩ := old (by rw [hpc]; nofun) trivial
        rw [State.go_pc]; rw [hpc] at a5
        rw [hg.map] at hm
        refine ⟨p, op, a3, ?_⟩
        cases x with
        | none => exact ⟨a5.1, .new a1 hm, a5.2⟩
        | some v => exact ⟨a5.1, .new a1 hm, a5.2⟩
      case chk k a st now hpc =>
        obtain ⟨p, op, a1, a2, a3, a4, a5⟩ := old (by rw [hpc]; nofun) trivial
        rw [State.go_pc]; rw [hpc] at a5
        exact ⟨p, op, a3, a5, tr.length, a1, get_new⟩
      case chkDead k a now st x hpc hx hd =>
        obtain ⟨p, op, a1, a2, a3, a4, a5⟩ := old (by rw [hpc]; nofun) trivial
        rw [State.go_pc]; rw [hpc] at a4
        rw [hg.exp a x hx] at hd
        exact ⟨p, op, a3, a4.1.dead a4.2 hd⟩
      case chkLive k a now st x hpc hx hd =>
        obtain ⟨p, op, a1, a2, a3, a4, a5⟩ := old (by rw [hpc]; nofun) trivial
        rw [State.go_pc]; rw [hpc] at a4
        rw [hg.exp a x hx] at hd
        exact ⟨p, op, a3, a4.1.live a4.2 hd⟩
      case losMk k v d now hpc =>
        obtain ⟨p, op, a1, a2, a3, a4, a5⟩ := old (by rw [hpc]; nofun) trivial
        rw [State.go_pc]; rw [hpc] at a4
        refine ⟨p, op, a3, a4, tr.length, now, a1, get_new, ?_⟩
        intro m k a' hm hc
        have := get_lt hc; simp at this; omega
      case losPut k v d a hpc hm =>
        obtain ⟨p, op, a1, a3, a4⟩ := old' (by rw [hpc]; nofun) (by nofun)
        rw [State.go_pc]; rw [hpc] at a4
        rw [hg.map] at hm
        obtain ⟨rfl, n, now, b1, b2, b3⟩ := a4
        exact ⟨p, _, a3, n, tr.length, now, b1, get_lt b2, get_keep b2, get_new, by rw [take_all]; exact hm⟩
      case losGet k v d a b hpc hm =>
        obtain ⟨p, op, a1, a2, a3, a4, a5⟩ := old (by rw [hpc]; nofun) trivial
        rw [State.go_pc]; rw [hpc] at a4
        rw [hg.map] at hm
        refine ⟨p, op, a3, a4.1, tr.length, a1, by simp, by rw [take_all]; exact hm, ?_⟩
        intro n e' hn hc
        rcases get_snoc.1 hc with hc' | ⟨_, rfl⟩
        · have := get_lt hc'; omega
        · exact fun _ h => h
      case delNone k hpc hm =>
        obtain ⟨p, op, a1, a2, a3, a4, a5⟩ := old (by rw [hpc]; nofun) trivial
        rw [State.go_pc]; rw [hpc] at a5
        rw [hg.map] at hm
        cases a5
        exact ⟨p, _, a3, .inl (.new a1 hm)⟩
      case delSome k a hpc hm =>
        obtain ⟨p, op, a1, a3, a4⟩ := old' (by rw [hpc]; nofun) (by nofun)
        rw [State.go_pc]; rw [hpc] at a4
        exact ⟨p, op, a3, AfterK.del ⟨k, tr.length, a, a4, a1, get_new⟩⟩
      case ladNone k hpc hm =>
        obtain ⟨p, op, a1, a2, a3, a4, a5⟩ := old (by rw [hpc]; nofun) trivial
        rw [State.go_pc]; rw [hpc] at a5
        rw [hg.map] at hm
        cases a5
        exact ⟨p, _, a3, .inl (.new a1 hm)⟩
      case ladSome k a hpc hm =>
        obtain ⟨p, op, a1, a3, a4⟩ := old' (by rw [hpc]; nofun) (by nofun)
        rw [State.go_pc]; rw [hpc] at a4
        rw [hg.map] at hm
        exact ⟨p, op, a3, a4, .new a1 hm, tr.length, a1, get_new⟩
      case cadDel k a aft hpc hm =>
        obtain ⟨p, op, a1, a3, a4⟩ := old' (by rw [hpc]; nofun) (by nofun)
        rw [State.go_pc]; rw [hpc] at a4
        exact ⟨p, op, a3, (CadK.del a4 a1).del⟩
      case cadFail k a aft hpc hm =>
        obtain ⟨p, op, a1, a2, a3, a4, a5⟩ := old (by rw [hpc]; nofun) trivial
        rw [State.go_pc]; rw [hpc] at a4
        rw [hg.map] at hm
        exact ⟨p, op, a3, CadK.fail a4 a1 hm⟩
      case cbCall a aft x hpc hx =>
        obtain ⟨p, op, a1, a2, a3, a4, a5⟩ := old (by rw [hpc]; nofun) trivial
        rw [State.go_pc]; rw [hpc] at a5
        exact ⟨p, op, a3, a5⟩
      case cbOk aft hpc =>
        obtain ⟨p, op, a1, a2, a3, a4, a5⟩ := old (by rw [hpc]; nofun) trivial
        rw [State.go_pc]; rw [hpc] at a5
        exact ⟨p, op, a3, AfterK.next a5⟩
      case cvEq k a v x hpc hx hv =>
        obtain ⟨p, op, a1, a2, a3, a4, a5⟩ := old (by rw [hpc]; nofun) trivial
        rw [State.go_pc]; rw [hpc] at a5
        exact ⟨p, op, a3, v, x.1, a5.1, a5.2.1, a5.2.2, (hg.made a x hx).snoc, hv⟩
      case cvNe k a v x hpc hx hv =>
        obtain ⟨p, op, a1, a2, a3, a4, a5⟩ := old (by rw [hpc]; nofun) trivial
        rw [State.go_pc]; rw [hpc] at a5
        obtain ⟨rfl, hl, h⟩ := a5
        exact ⟨p, _, a3, h.dels, .inr ⟨a, .inr ⟨x.1, hl, (hg.made a x hx).snoc, .inl hv⟩⟩⟩
      case clrCb hpc hb =>
        obtain ⟨p, op, a1, a2, a3, a4, a5⟩ := old (by rw [hpc]; nofun) trivial
        rw [State.go_pc]; rw [hpc] at a5
        exact ⟨p, op, a3, a5.1, trivial, a5.2⟩
      case clrWipe hpc hb =>
        obtain ⟨p, op, a1, a3, a4⟩ := old' (by rw [hpc]; nofun) (by nofun)
        rw [State.go_pc]; rw [hpc] at a4
        obtain ⟨rfl, _⟩ := a4
        exact ⟨p, _, a3, fun k a hc => .now a1 (by rw [content_snoc]; simp [Ev.onKey])⟩
      case snap kind ks hpc hn hall =>
        obtain ⟨p, op, a1, a2, a3, a4, a5⟩ := old (by rw [hpc]; nofun) trivial
        rw [State.go_pc]; rw [hpc] at a5
        have hl : hist.length - 1 = tr.length := by have := hg.len; omega
        rw [hl]
        refine ⟨p, op, a3, a5.1, a5.2.1, a1, by simp, hn, ?_, fun n k a hp hc => absurd hc (a5.2.2 n k a hp)⟩
        intro k a hc
        rw [take_all, ← hg.map] at hc
        exact .inl (hall _ (Map.get_mem hc))
      case iterEnd kind st hpc =>
        obtain ⟨p, op, a1, a2, a3, a4, a5⟩ := old (by rw [hpc]; nofun) trivial
        rw [State.go_pc]; rw [hpc] at a5
        exact ⟨p, op, a3, IterP.over a5⟩
      case iterNone kind k ks st z m hpc hz hm hk =>
        obtain ⟨p, op, a1, a2, a3, a4, a5⟩ := old (by rw [hpc]; nofun) trivial
        rw [State.go_pc]; rw [hpc] at a5
        have := get_lt hm
        have := hg.len
        rw [hg.hist z m hm] at hk
        exact ⟨p, op, a3, IterP.skip a5 hz (by simp; omega) (by rw [take_snoc (by omega)]; exact hk)⟩
      case iterSome kind k ks st z m a hpc hz hm hk =>
        obtain ⟨p, op, a1, a2, a3, a4, a5⟩ := old (by rw [hpc]; nofun) trivial
        rw [State.go_pc]; rw [hpc] at a5
        have := get_lt hm
        have := hg.len
        rw [hg.hist z m hm] at hk
        exact ⟨p, op, a3, IterP.visit a5 hz (by simp; omega) (by rw [take_snoc (by omega)]; exact hk)⟩
      case tDead k a now it x hpc hx hd =>
        obtain ⟨p, op, a1, a2, a3, a4, a5⟩ := old (by rw [hpc]; nofun) trivial
        rw [State.go_pc]; rw [hpc] at a4
        rw [hg.exp a x hx] at hd
        obtain ⟨b1, ⟨z, b2, b3, b4⟩, b5⟩ := a4
        have b6 := b5.clk
        rw [b1] at b6
        obtain ⟨y, t, c1, c2, rfl⟩ := b6
        refine ⟨p, op, a3, b5.sn (fun _ => trivial), .inr ⟨z, y, tr.length, t, b2, b3, c1, get_lt c2, ?_, get_keep c2, get_new, ?_⟩⟩
        · rw [take_snoc b3]; exact b4
        · rw [take_all]; exact hd
      case tLive k a now it x hpc hx hd =>
        obtain ⟨p, op, a1, a2, a3, a4, a5⟩ := old (by rw [hpc]; nofun) trivial
        rw [State.go_pc]; rw [hpc] at a5
        rw [hg.exp a x hx] at hd
        refine ⟨p, op, a3, a5.2.2.handled ?_⟩
        rw [a5.1]
        exact .inr ⟨tr.length, a1, get_new, by rw [take_all]; omega⟩
      case fCall k a it hpc =>
        obtain ⟨p, op, a1, a3, a4⟩ := old' (by rw [hpc]; nofun) (by nofun)
        rw [State.go_pc]; rw [hpc] at a4
        obtain ⟨b1, b2, b3⟩ := a4
        refine ⟨p, op, a3, b1, b3.ok, b3.clk.sn, b3.lt, by have := b3.le; simp; omega, (List.nodup_append.1 b3.nodup).2.1, ?_, ?_⟩
        · intro k' a' hc
          rw [take_snoc b3.le] at hc
          rcases b3.all k' a' hc with h | h | h
          · exact .inl h
          · exact .inr (.inl h.sn)
          · simp only [List.mem_singleton, Prod.mk.injEq] at h
            obtain ⟨rfl, rfl⟩ := h
            rw [b1]
            exact .inr (.inl (.inr ⟨tr.length, a1, get_new⟩))
        · intro n k' a' hn hc
          rcases get_snoc.1 hc with hc' | ⟨_, h'⟩
          · exact fun hm => b3.fresh n k' a' hn hc' (by simp_all)
          · injection h' with _ h1 h2
            subst h1
            exact (List.nodup_cons.1 b3.nodup).1
      case fMore it hpc =>
        obtain ⟨p, op, a1, a2, a3, a4, a5⟩ := old (by rw [hpc]; nofun) trivial
        rw [State.go_pc]; rw [hpc] at a5
        exact ⟨p, op, a3, a5.2⟩
      case fStop it hpc =>
        obtain ⟨p, op, a1, a2, a3, a4, a5⟩ := old (by rw [hpc]; nofun) trivial
        rw [State.go_pc]; rw [hpc] at a5
        have := a5.2.ok
        rw [a5.1] at this
        cases this
        exact ⟨p, _, a3, .inl ⟨tr.length, a1, get_new⟩⟩
      case tkOn hpc hb =>
        obtain ⟨p, op, a1, a2, a3, a4, a5⟩ := old (by rw [hpc]; nofun) trivial
        rw [State.go_pc]; rw [hpc] at a5
        exact ⟨p, op, a3, a5.1, ⟨tr.length, a1, by simp, by rw [take_all, ← hr]; exact hb⟩, a5.2⟩
      case tkOff hpc hb =>
        obtain ⟨p, op, a1, a2, a3, a4, a5⟩ := old (by rw [hpc]; nofun) trivial
        rw [State.go_pc]; rw [hpc] at a5
        obtain ⟨rfl, _⟩ := a5
        exact ⟨p, _, a3, .inl ⟨tr.length, a1, by simp, by rw [take_all, ← hr]; exact hb⟩⟩
      case trNow now hpc =>
        obtain ⟨p, op, a1, a2, a3, a4, a5⟩ := old (by rw [hpc]; nofun) trivial
        rw [State.go_pc]; rw [hpc] at a5
        exact ⟨p, op, a3, a5.1, ⟨tr.length, now, a1, get_new, rfl⟩, a5.2.2⟩
      case regPut b hpc =>
        obtain ⟨p, op, a1, a2, a3, a4, a5⟩ := old (by rw [hpc]; nofun) trivial
        rw [State.go_pc]; rw [hpc] at a5
        refine ⟨p, op, a3, ?_⟩
        cases b <;> (cases a5; exact ⟨tr.length, a1, get_new⟩)
      case neMk v d now hpc =>
        obtain ⟨p, op, a1, a2, a3, a4, a5⟩ := old (by rw [hpc]; nofun) trivial
        rw [State.go_pc]; rw [hpc] at a5
        cases a5
        exact ⟨p, _, a3, tr.length, now, a1, get_new⟩
      case valSome a x hpc hx =>
        obtain ⟨p, op, a1, a2, a3, a4, a5⟩ := old (by rw [hpc]; nofun) trivial
        rw [State.go_pc]; rw [hpc] at a5
        cases a5
        exact ⟨p, _, a3, (hg.made a x hx).snoc⟩
      case ieNow a now hpc =>
        obtain ⟨p, op, a1, a2, a3, a4, a5⟩ := old (by rw [hpc]; nofun) trivial
        rw [State.go_pc]; rw [hpc] at a5
        exact ⟨p, op, a3, a5, tr.length, a1, get_new⟩
      case ieSome a now x hpc hx =>
        obtain ⟨p, op, a1, a2, a3, a4, a5⟩ := old (by rw [hpc]; nofun) trivial
        rw [State.go_pc]; rw [hpc] at a4
        obtain ⟨rfl, y, b1, b2⟩ := a4
        have key : ∃ (x' y' : Nat) (now' : Int), p < x' ∧ x' < y' ∧ (tr ++ [Ev.seen j a])[x']? = some (.clock j now') ∧ (tr ++ [Ev.seen j a])[y']? = some (.seen j a) ∧
            decide (ms now > x.2) = decide (ms now' > expOf ((tr ++ [Ev.seen j a]).take y') a) :=
          ⟨y, tr.length, now, b1, get_lt b2, get_keep b2, get_new, by rw [take_all, hg.exp a x hx]⟩
        refine ⟨p, _, a3, ?_⟩
        unfold Know
        generalize decide (ms now > x.2) = b at key
        cases b <;> exact key
      case addSome a d x hpc hx =>
        obtain ⟨p, op, a1, a2, a3, a4, a5⟩ := old (by rw [hpc]; nofun) trivial
        rw [State.go_pc]; rw [hpc] at a5
        cases a5
        exact ⟨p, _, a3, tr.length, a1, get_new⟩
      case setSome a t x hpc hx =>
        obtain ⟨p, op, a1, a2, a3, a4, a5⟩ := old (by rw [hpc]; nofun) trivial
        rw [State.go_pc]; rw [hpc] at a5
        cases a5
        exact ⟨p, _, a3, tr.length, a1, get_new⟩
      all_goals exact panic (by simp [*]) trivial State.go_pc
    · rw [hst.other hj] at hj' ⊢
      obtain ⟨p, op, h5, h6⟩ := ih j hj'
      have he : e.tid = j → e.mild := by rw [hst.tid]; exact fun h => absurd h.symm hj
      exact ⟨p, op, h5.sn he, h6.sn (get_lt h5.1) he⟩

end Verif.SyncCache
