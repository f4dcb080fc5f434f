import Verif.SyncCache.World
/-!
# Rounds of the trimmer over all caches
-/
namespace Verif.SyncCache
open Verif.Refresh (get_snoc get_lt get_keep get_new)
variable {K V : Type} [DecidableEq K]
variable {cfg : Nat → Cfg V} {tr : List (WEv K V)} {w w' : World K V} {e : WEv K V} {c c' i j t t' n m p q : Nat} {inp : WIn K V} {ks rest : List Nat}

theorem get_take' : (tr.take m)[n]? = some e ↔ n < m ∧ tr[n]? = some e := by
  rw [List.getElem?_take]
  split
  · next h => exact ⟨fun h' => ⟨h, h'⟩, fun h' => h'.2⟩
  · next h => exact ⟨nofun, fun h' => absurd h'.1 h⟩

theorem step_isCall {s s' : State K V} {c : Cfg V} {hist : List (Map K)} {inp : In K V} {op : Op K V} (h : step c hist s i inp = some (s', .call j op)) :
    s.pc i = .idle := by
  have hs := step_Step h
  cases hs; assumption

theorem step_isRet {s s' : State K V} {c : Cfg V} {hist : List (Map K)} {inp : In K V} {r : Res V} (h : step c hist s i inp = some (s', .ret j r)) :
    s.pc i = .done r ∧ j = i := by
  have hs := step_Step h
  cases hs; exact ⟨by assumption, rfl⟩

theorem WStep.noCall (h : WStep cfg w w' e) (hg : Good w) (ht : w.tpc t = .round rest) (op : Op K V) : e.on c ≠ some (.call (2 * t) op) := by
  cases h with
  | @user c' i inp s e h1 h2 h3 he =>
    simp only [WEv.on]
    split
    · intro h; cases h
      have := (step_Step he).tid
      simp only [Ev.tid] at this
      omega
    · nofun
  | @tick t' ks h1 h2 h3 h4 =>
    simp only [WEv.on]
    split
    · intro h
      injection h with h
      injection h with h h'
      have : t' = t := by omega
      subst this
      rw [ht] at h1; cases h1
    · nofun
  | @trim t' c' ks inp s e h1 h2 he h3 h4 =>
    simp only [WEv.on]
    split
    · intro h; cases h
      exact absurd (step_isCall he) ((hg.busy _ _).2 ⟨_, h1, h2⟩)
    · nofun
  | @ret t' c' ks inp s e h1 he h3 h4 =>
    simp only [WEv.on]
    split
    · intro h; cases h; cases h3
    · nofun
  | _ => nofun

/-- Cache `c` in the round of goroutine `t` that began at `p`: to do, or done. -/
def Todo (tr : List (WEv K V)) (t p c : Nat) : Prop := Cur (view c tr) (2 * t) (view c (tr.take p)).length .tick

def Trimmed (tr : List (WEv K V)) (t p c q : Nat) : Prop :=
  p < q ∧ tr[q]? = some (.ev c (.ret (2 * t) .unit)) ∧ CallAt (view c tr) (2 * t) (view c (tr.take p)).length .tick (view c (tr.take q)).length

theorem Todo.sn (h : Todo tr t p c) (hp : p < tr.length) (he : ∀ op, e.on c ≠ some (.call (2 * t) op)) : Todo (tr ++ [e]) t p c := by
  unfold Todo
  rw [List.take_append_of_le_length (Nat.le_of_lt hp), view_snoc]
  cases hx : e.on c with
  | none => rw [Option.toList_none, List.append_nil]; exact h
  | some x =>
    refine ⟨get_keep h.1, fun n op hn hget => ?_⟩
    rcases get_snoc.1 hget with hg | ⟨_, rfl⟩
    · exact h.2 n op hn hg
    · exact he op hx

theorem CallAt.sn {tr : List (Ev K V)} {op : Op K V} (h : CallAt tr i p op q) (hq : q ≤ tr.length) (l : List (Ev K V)) : CallAt (tr ++ l) i p op q := by
  refine ⟨h.lt, ?_, fun k op' a b => ?_⟩
  · rw [List.getElem?_append_left (by have := h.lt; omega)]; exact h.at_
  · rw [List.getElem?_append_left (by omega)]; exact h.only k op' a b

theorem view_le : (view c (tr.take n)).length ≤ (view c tr).length := ((List.take_sublist n tr).filterMap _).length_le

theorem Trimmed.sn (h : Trimmed tr t p c q) : Trimmed (tr ++ [e]) t p c q := by
  have hq := get_lt h.2.1
  have := h.1
  refine ⟨h.1, get_keep h.2.1, ?_⟩
  rw [List.take_append_of_le_length (by omega), List.take_append_of_le_length (by omega), view_snoc]
  exact h.2.2.sn view_le _

/-- How far the round is. -/
def InRound (tr : List (WEv K V)) (t : Nat) (rest : List Nat) : Prop :=
  ∃ p ks, tr[p]? = some (.tick t ks) ∧ (∀ (n : Nat) (ks' : List Nat), p < n → tr[n]? ≠ some (.tick t ks')) ∧
    ∀ c ∈ ks, c ∈ rest ∧ Todo tr t p c ∨ ∃ q, Trimmed tr t p c q

theorem WExec.inRound (h : WExec cfg tr w) : ∀ t rest, w.tpc t = .round rest → InRound tr t rest := by
  induction h with
  | nil => intro t rest h; cases h
  | @snoc tr w inp w' e h0 hs ih =>
    obtain ⟨hg, hv⟩ := h0.good_view
    have hW := wstep_WStep hs
    -- a round goes on
    have keep : ∀ t rest, w.tpc t = .round rest → InRound (tr ++ [e]) t rest := by
      intro t rest ht
      obtain ⟨p, ks, h1, h2, h3⟩ := ih t rest ht
      refine ⟨p, ks, get_keep h1, fun n ks' hn hget => ?_, fun c hc => ?_⟩
      · rcases get_snoc.1 hget with h | ⟨_, rfl⟩
        · exact h2 n ks' hn h
        · cases hW with
          | tick a => rw [ht] at a; cases a
      · rcases h3 c hc with ⟨a, b⟩ | ⟨q, a⟩
        · exact .inl ⟨a, b.sn (get_lt h1) (hW.noCall hg ht)⟩
        · exact .inr ⟨q, a.sn⟩
    cases hW with
    | @user c i inp s e h1 h2 h3 he =>
      rw [(reg_st (w := w.put c s) (c := c) (e := e)).2.2.1]
      exact keep
    | enter => exact keep
    | skip => exact keep
    | spawn => exact keep
    | leave => exact keep
    | trim => exact keep
    | @tick t ks h1 h2 h3 h4 =>
      intro t' rest hr
      by_cases ht : t' = t
      · subst ht
        simp only [Function.update_self] at hr
        cases hr
        refine ⟨tr.length, ks, get_new, fun n ks' hn hget => ?_, fun c hc => .inl ⟨hc, ?_⟩⟩
        · have := get_lt hget; simp at this; omega
        · have hcall : (WEv.tick t' ks : WEv K V).on c = some (.call (2 * t') .tick) := by simp [WEv.on, hc]
          unfold Todo
          rw [List.take_append_of_le_length (Nat.le_refl _), List.take_length, view_snoc, hcall]
          refine ⟨get_new, fun n op hn hget => ?_⟩
          have := get_lt hget; simp at this; omega
      · simp only [Function.update_of_ne ht] at hr
        exact keep t' rest hr
    | @ret t c ks inp s e h1 he h3 h4 =>
      intro t' rest hr
      by_cases ht : t' = t
      · subst ht
        simp only [Function.update_self] at hr
        cases hr
        cases e <;> simp only [Ev.isRet, reduceCtorEq, Bool.false_eq_true] at h3
        rename_i k r
        obtain ⟨hpc, rfl⟩ := step_isRet he
        obtain ⟨p, ks', a1, a2, a3⟩ := keep t' _ h1
        refine ⟨p, ks', a1, a2, fun c' hc' => ?_⟩
        rcases a3 c' hc' with ⟨b1, b2⟩ | b
        · by_cases hcc : c' = c
          · subst hcc
            right
            have hp : p < tr.length := by
              rcases get_snoc.1 a1 with h | ⟨_, h⟩
              · exact get_lt h
              · cases h
            have hview : view c' (tr ++ [WEv.ev c' (Ev.ret (2 * t') r)]) = view c' tr ++ [.ret (2 * t') r] := by rw [view_snoc]; simp [WEv.on]
            have hlt : (view c' (tr.take p)).length < (view c' tr).length := by
              have := get_lt b2.1
              rw [hview, List.take_append_of_le_length (Nat.le_of_lt hp)] at this
              rcases get_snoc.1 (hview ▸ b2.1) with h | ⟨_, h⟩
              · have := get_lt h
                rwa [List.take_append_of_le_length (Nat.le_of_lt hp)] at this
              · cases h
            have hca : CallAt (view c' (tr ++ [WEv.ev c' (Ev.ret (2 * t') r)])) (2 * t') (view c' (tr.take p)).length .tick (view c' tr).length := by
              unfold Todo at b2
              rw [List.take_append_of_le_length (Nat.le_of_lt hp)] at b2
              exact ⟨hlt, b2.1, fun k op' a _ => b2.2 k op' a⟩
            have hget : (view c' (tr ++ [WEv.ev c' (Ev.ret (2 * t') r)]))[(view c' tr).length]? = some (.ret (2 * t') r) := by rw [hview]; exact get_new
            have hr : r = .unit := sync_results (world_cache (h0.snoc hs) c') hca hget (by rintro rfl; exact h4 hpc)
            subst hr
            refine ⟨tr.length, hp, get_new, ?_⟩
            rw [List.take_append_of_le_length (Nat.le_of_lt hp), List.take_append_of_le_length (Nat.le_refl _), List.take_length]
            exact hca
          · exact .inl ⟨(List.mem_cons.1 b1).resolve_left hcc, b2⟩
        · exact .inr b
      · simp only [Function.update_of_ne ht] at hr
        exact keep t' rest hr
    | @fin t h1 =>
      intro t' rest hr
      by_cases ht : t' = t
      · subst ht; simp only [Function.update_self] at hr; cases hr
      · simp only [Function.update_of_ne ht] at hr
        exact keep t' rest hr

/-! ### Positions in the process and in a cache -/

theorem view_take : view c (tr.take n) = (view c tr).take (view c (tr.take n)).length := by
  have : view c tr = view c (tr.take n) ++ view c (tr.drop n) := by
    rw [view, view, view, ← List.filterMap_append, List.take_append_drop]
  rw [this, List.take_append_of_le_length (Nat.le_refl _), List.take_length]

theorem view_lt (h : (view c (tr.take n)).length < (view c (tr.take m)).length) : n < m := by
  by_contra hn
  have := view_mono (c := c) (tr := tr) (show m ≤ n by omega)
  omega

theorem view_cut {z : Nat} (hz : z ≤ (view c (tr.take q)).length) : ∃ z', z' ≤ q ∧ view c (tr.take z') = (view c tr).take z := by
  rcases Nat.lt_or_eq_of_le hz with hlt | rfl
  · have hz' : z < (view c tr).length := Nat.lt_of_lt_of_le hlt view_le
    obtain ⟨m, h1, x, h2, h3⟩ := view_take_get (List.getElem?_eq_getElem hz')
    refine ⟨m, Nat.le_of_lt (view_lt (c := c) (tr := tr) ?_), h1⟩
    rw [h1, List.length_take]; omega
  · exact ⟨q, Nat.le_refl _, view_take⟩

theorem view_ev {e : Ev K V} (h : (view c tr)[n]? = some e) (he : ∀ i op, e ≠ .call i op) :
    ∃ m, view c (tr.take m) = (view c tr).take n ∧ (view c (tr.take m)).length = n ∧ tr[m]? = some (.ev c e) := by
  obtain ⟨m, h1, x, h2, h3⟩ := view_take_get h
  refine ⟨m, h1, ?_, ?_⟩
  · rw [h1, List.length_take]; have := get_lt h; omega
  · rw [h2]
    cases x with
    | ev c' e' =>
      simp only [WEv.on] at h3
      split at h3
      · next hc => cases h3; rw [hc]
      · cases h3
    | tick t ks =>
      simp only [WEv.on] at h3
      split at h3
      · cases h3; exact absurd rfl (he _ _)
      · cases h3
    | _ => cases h3

/-- A round of the trimmer: from the snapshot at `p` to the end at `q`. -/
structure Round (tr : List (WEv K V)) (t p : Nat) (ks : List Nat) (q : Nat) : Prop where
  lt : p < q
  tick : tr[p]? = some (.tick t ks)
  fin : tr[q]? = some (.fin t)
  only : ∀ (n : Nat) (ks' : List Nat), p < n → n < q → tr[n]? ≠ some (.tick t ks')

/-- **C117**: every round that ends has begun, and has trimmed every cache that was registered when it began. -/
theorem world_round (h : WExec cfg tr w) (hq : tr[q]? = some (.fin t)) : ∃ p ks, Round tr t p ks q ∧
    (∀ c, regOf (view c (tr.take p)) = true → c ∈ ks) ∧ ∀ c ∈ ks, ∃ n, n < q ∧ Trimmed tr t p c n := by
  obtain ⟨w0, inp, w1, h1, h2⟩ := h.at hq
  have hr : w0.tpc t = .round [] := by
    have hW := wstep_WStep h2
    cases hW with
    | fin a => exact a
  obtain ⟨p, ks, a1, a2, a3⟩ := h1.inRound t [] hr
  have a1' := get_take'.1 a1
  refine ⟨p, ks, ⟨a1'.1, a1'.2, hq, fun n ks' b1 b2 b3 => a2 n ks' b1 (get_take'.2 ⟨b2, b3⟩)⟩, fun c hc => ?_, fun c hc => ?_⟩
  · obtain ⟨w2, inp', w3, b1, b2⟩ := h.at a1'.2
    have hW := wstep_WStep b2
    cases hW with
    | tick d1 d2 d3 d4 =>
      apply d4
      rw [b1.good_view.1.regs, (world_cache b1 c).regOf]
      exact hc
  · rcases a3 c hc with ⟨b, _⟩ | ⟨n, b1, b2, b3⟩
    · cases b
    · have b2' := get_take'.1 b2
      refine ⟨n, b2'.1, b1, b2'.2, ?_⟩
      rw [List.take_take, List.take_take, Nat.min_eq_left (by omega), Nat.min_eq_left (by omega), view_take (n := q)] at b3
      have hle : (view c (tr.take n)).length ≤ (view c (tr.take q)).length := view_mono (by omega)
      refine ⟨b3.lt, ?_, fun k op' d1 d2 hk => b3.only k op' d1 d2 ?_⟩
      · have := b3.at_
        rw [List.getElem?_take] at this
        split at this
        · exact this
        · cases this
      · rw [List.getElem?_take, if_pos (by omega)]; exact hk

/-- **C117**: of the entries in a cache that is registered during the whole round, those stay whose expiration, read in this round, was not before the clock
of this round of that cache. -/
theorem world_trim (h : WExec cfg tr w) (hr : Round tr t p ks q) (hreg : ∀ z, p ≤ z → z ≤ q → regOf (view c (tr.take z)) = true) :
    ∃ n now, p < n ∧ n < q ∧ tr[n]? = some (.ev c (.clock (2 * t) now)) ∧ ∀ k a, content (view c (tr.take p)) k = some a →
      (∀ z k', q ≤ z → content (view c (tr.take z)) k' ≠ some a) ∨
      ∃ y, p < y ∧ y < q ∧ tr[y]? = some (.ev c (.seen (2 * t) a)) ∧ ms now ≤ expOf (view c (tr.take y)) a := by
  obtain ⟨p', ks', r1, r2, r3⟩ := world_round h hr.fin
  have hpp : p' = p ∧ ks' = ks := by
    rcases Nat.lt_trichotomy p p' with hlt | rfl | hlt
    · exact absurd r1.tick (hr.only _ _ hlt r1.lt)
    · have := r1.tick
      rw [hr.tick] at this; cases this; exact ⟨rfl, rfl⟩
    · exact absurd hr.tick (r1.only _ _ hlt hr.lt)
  obtain ⟨rfl, rfl⟩ := hpp
  have hc := r2 c (hreg p' (Nat.le_refl _) (Nat.le_of_lt hr.lt))
  obtain ⟨q', hq', t1, t2, t3⟩ := r3 c hc
  have hex := world_cache h c
  have hcall : (WEv.tick t ks' : WEv K V).on c = some (.call (2 * t) .tick) := by simp [WEv.on, hc]
  have hp1 : view c (tr.take (p' + 1)) = view c (tr.take p') ++ [.call (2 * t) .tick] := by
    rw [List.take_add_one, hr.tick]
    show view c (tr.take p' ++ [_]) = _
    rw [view_snoc, hcall]; rfl
  rcases sync_trim hex t3 (view_get t2 (by simp [WEv.on])) with ⟨z, z1, z2, z3⟩ | ⟨n, now, n1, n2, n3, n4⟩
  · obtain ⟨z', y1, y2⟩ := view_cut z2
    exfalso
    rw [← y2, hreg z' ?_ (by omega)] at z3
    · cases z3
    · refine Nat.le_of_lt (view_lt (c := c) (tr := tr) ?_)
      rw [y2, List.length_take]
      have : z ≤ (view c tr).length := Nat.le_trans z2 view_le
      omega
  · obtain ⟨m, m1, m2, m3⟩ := view_ev n3 nofun
    refine ⟨m, now, view_lt (c := c) (tr := tr) (by omega), Nat.lt_trans (view_lt (c := c) (tr := tr) (by omega)) hq', m3, fun k a ha => ?_⟩
    have ha' : content ((view c tr).take ((view c (tr.take p')).length + 1)) k = some a := by
      have : (view c (tr.take (p' + 1))).length = (view c (tr.take p')).length + 1 := by rw [hp1, List.length_append]; rfl
      rw [← this, ← view_take, hp1, content_snoc]
      exact ha
    rcases n4 k a ha' with hz | ⟨y, y1, y2, y3, y4⟩
    · left
      intro z k' hz'
      rw [view_take]
      exact hz _ k' (view_mono (by omega))
    · right
      obtain ⟨x, x1, x2, x3⟩ := view_ev y3 nofun
      refine ⟨x, view_lt (c := c) (tr := tr) (by omega), Nat.lt_trans (view_lt (c := c) (tr := tr) (by omega)) hq', x3, ?_⟩
      rw [x1]; exact y4

/-! ### One cache at a time -/

/-- Goroutine `t` has read the clock in `c` and not returned since. -/
def Active (tr : List (WEv K V)) (t c : Nat) : Prop :=
  ∃ (n : Nat) (now : Int), tr[n]? = some (.ev c (.clock (2 * t) now)) ∧ ∀ (m : Nat) (r : Res V), n < m → tr[m]? ≠ some (.ev c (.ret (2 * t) r))

theorem step_tkReg {s s' : State K V} {c : Cfg V} {hist : List (Map K)} {inp : In K V} {e : Ev K V} (h : step c hist s i inp = some (s', e)) (hi : s.pc i ≠ .idle) :
    s'.pc i ≠ .tkReg := by
  have hs := step_Step h
  cases hs <;> (first | (rename_i hpc; exact absurd hpc hi) | skip) <;>
    simp only [State.go, Function.update_self, reduceCtorEq, ne_eq, not_false_eq_true]
  all_goals first
    | (unfold afterDel; split <;> (try simp); unfold After.next; split <;> simp; done)
    | (unfold Site.live; split <;> (try simp); unfold afterDel; split <;> (try simp); unfold After.next; split <;> simp; done)
    | (unfold Site.dead; split <;> (try simp); unfold afterDel; split <;> (try simp); unfold After.next; split <;> simp; done)
    | (unfold After.next; split <;> simp; done)
    | (unfold Iter.visit; split <;> simp; done)
    | ((repeat' split) <;> simp; done)
    | skip

/-- The step of a goroutine in cache `c`, by its event. -/
theorem WStep.mine {e : Ev K V} (h : WStep cfg w w' (.ev c e)) (ht : e.tid = 2 * t) : ∃ ks inp s, w.tpc t = .round ks ∧ c ∈ ks ∧
    step (cfg c) (w.hist c) (w.st c) (2 * t) inp = some (s, e) ∧ w'.st c = s ∧
    ((w.st c).pc (2 * t) = .tkReg ∧ w'.tpc = w.tpc ∧ e = .tau (2 * t) ∨
     (w.st c).pc (2 * t) ≠ .tkReg ∧ ∃ rest, ks = c :: rest ∧ (e.isRet = false ∧ w'.tpc = w.tpc ∨ e.isRet = true ∧ w'.tpc = Function.update w.tpc t (.round rest))) := by
  generalize hE : (WEv.ev c e : WEv K V) = E at h
  cases h with
  | @user c' i inp s e' h1 h2 h3 he =>
    cases hE
    have := (step_Step he).tid
    omega
  | @trim t' c' ks inp s e' h1 h2 he h3 h4 =>
    cases hE
    have hid := (step_Step he).tid
    have : t' = t := by omega
    subst this
    refine ⟨ks, inp, s, h1, h2, he, by simp [World.put], ?_⟩
    rcases h4 with h4 | ⟨h4, h5, _⟩
    · refine .inl ⟨h4, rfl, ?_⟩
      cases inp <;> simp only [step, h4, reduceCtorEq, Option.some.injEq, Prod.mk.injEq] at he
      exact he.2.symm
    · refine .inr ⟨h5, ks.tail, ?_, .inl ⟨h3, rfl⟩⟩
      cases ks with
      | nil => cases h4
      | cons x ks => cases h4; rfl
  | @ret t' c' ks inp s e' h1 he h3 h4 =>
    cases hE
    have hid := (step_Step he).tid
    have : t' = t := by omega
    subst this
    refine ⟨_, inp, s, h1, List.mem_cons_self .., he, by simp [World.put], .inr ⟨?_, ks, rfl, .inr ⟨h3, rfl⟩⟩⟩
    cases e <;> simp only [Ev.isRet, reduceCtorEq, Bool.false_eq_true] at h3
    rw [(step_isRet he).1]; nofun
  | _ => cases hE

/-- What others' steps leave alone. -/
theorem WStep.other (h : WStep cfg w w' e) (ht : w.tpc t = .round (c :: rest)) (hpc : (w.st c).pc (2 * t) ≠ .tkReg) (he : ∀ e', e = .ev c e' → e'.tid ≠ 2 * t) :
    w'.tpc t = w.tpc t ∧ (w'.st c).pc (2 * t) = (w.st c).pc (2 * t) := by
  cases h with
  | @user c' i inp s e' h1 h2 h3 hs =>
    obtain ⟨r1, r2, r3, _⟩ := reg_st (w := w.put c' s) (c := c') (e := e')
    rw [r1, r3]
    refine ⟨rfl, ?_⟩
    by_cases hc : c = c'
    · subst hc; simp only [World.put, Function.update_self]; exact (step_Step hs).other (by omega)
    · simp only [World.put, Function.update_of_ne hc]
  | enter => exact ⟨rfl, rfl⟩
  | skip => exact ⟨rfl, rfl⟩
  | spawn => exact ⟨rfl, rfl⟩
  | leave => exact ⟨rfl, rfl⟩
  | @tick t' ks h1 h2 h3 h4 =>
    have hne : t ≠ t' := by rintro rfl; rw [ht] at h1; cases h1
    refine ⟨Function.update_of_ne hne _ _, ?_⟩
    show (if c ∈ ks then (w.st c).go (2 * t') (SyncCache.enter .tick) else w.st c).pc (2 * t) = _
    split
    · simp only [State.go]; rw [Function.update_of_ne (by omega)]
    · rfl
  | @trim t' c' ks inp s e' h1 h2 hs h3 h4 =>
    refine ⟨rfl, ?_⟩
    by_cases hc : c = c'
    · subst hc
      have := he e' rfl
      rw [(step_Step hs).tid] at this
      simp only [World.put, Function.update_self]; exact (step_Step hs).other (Ne.symm this)
    · simp only [World.put, Function.update_of_ne hc]
  | @ret t' c' ks inp s e' h1 hs h3 h4 =>
    have hne : t ≠ t' := by
      rintro rfl
      rw [ht] at h1; cases h1
      exact he e' rfl (step_Step hs).tid
    refine ⟨Function.update_of_ne hne _ _, ?_⟩
    show ((w.put c' s).st c).pc _ = _
    by_cases hc : c = c'
    · subst hc
      simp only [World.put, Function.update_self]; exact (step_Step hs).other (by omega)
    · simp only [World.put, Function.update_of_ne hc]
  | @fin t' h1 =>
    have hne : t ≠ t' := by rintro rfl; rw [ht] at h1; cases h1
    exact ⟨Function.update_of_ne hne _ _, rfl⟩

theorem WExec.active (h : WExec cfg tr w) (ha : Active tr t c) : ∃ rest, w.tpc t = .round (c :: rest) ∧ (w.st c).pc (2 * t) ≠ .tkReg := by
  induction h with
  | nil => obtain ⟨n, now, h, _⟩ := ha; cases h
  | @snoc tr w inp w' e h0 hs ih =>
    have hW := wstep_WStep hs
    have hg := h0.good_view.1
    obtain ⟨n, now, h1, h2⟩ := ha
    rcases get_snoc.1 h1 with h1' | ⟨rfl, rfl⟩
    · obtain ⟨rest, b1, b2⟩ := ih ⟨n, now, h1', fun m r hm hget => h2 m r hm (get_keep hget)⟩
      by_cases he : ∃ e', e = .ev c e' ∧ e'.tid = 2 * t
      · obtain ⟨e', rfl, he'⟩ := he
        obtain ⟨ks, inp, s, c1, c2, c3, c4, c5⟩ := hW.mine he'
        rw [c1] at b1; cases b1
        rcases c5 with c5 | ⟨_, rest', hr, c5⟩
        · exact absurd c5.1 b2
        · rcases c5 with c5 | c5
          · rw [c5.2, c4]
            exact ⟨rest, c1, step_tkReg c3 ((hg.busy _ _).2 ⟨_, c1, c2⟩)⟩
          · exfalso
            cases e' <;> simp only [Ev.isRet, reduceCtorEq, Bool.false_eq_true, false_and] at c5
            simp only [Ev.tid] at he'
            subst he'
            exact h2 tr.length _ (get_lt h1') get_new
      · obtain ⟨c1, c2⟩ := hW.other b1 b2 fun e' h1 h2 => he ⟨e', h1, h2⟩
        rw [c1, c2]; exact ⟨rest, b1, b2⟩
    · obtain ⟨ks, inp, s, c1, c2, c3, c4, c5⟩ := hW.mine rfl
      rcases c5 with ⟨_, _, c5⟩ | ⟨_, rest, rfl, ⟨_, c5⟩ | ⟨c5, _⟩⟩
      · cases c5
      · rw [c5, c4]
        exact ⟨rest, c1, step_tkReg c3 ((hg.busy _ _).2 ⟨_, c1, c2⟩)⟩
      · cases c5

/-- **C117**: the caches are trimmed one after the other: from the time the trimmer reads the clock in a cache until it has done with that cache it does
nothing in any other but look whether it is registered. -/
theorem world_one_at_a_time {now : Int} {e : Ev K V} (h : WExec cfg tr w) (hm : tr[m]? = some (.ev c (.clock (2 * t) now))) (hn : tr[n]? = some (.ev c' e))
    (ht : e.tid = 2 * t) (hc : c' ≠ c) (hmn : m < n) (he : e ≠ .tau (2 * t)) : ∃ l r, m < l ∧ l < n ∧ tr[l]? = some (.ev c (.ret (2 * t) r)) := by
  by_contra hno
  obtain ⟨w0, inp, w1, h1, h2⟩ := h.at hn
  have hW := wstep_WStep h2
  obtain ⟨rest, b1, b2⟩ := h1.active (c := c) (t := t) ⟨m, now, get_take'.2 ⟨hmn, hm⟩, fun l r hl hget => hno ⟨l, r, hl, (get_take'.1 hget).1, (get_take'.1 hget).2⟩⟩
  obtain ⟨ks, inp, s, c1, c2, c3, c4, c5⟩ := hW.mine ht
  rcases c5 with ⟨_, _, c5⟩ | ⟨_, rest', rfl, _⟩
  · exact he c5
  · rw [b1] at c1; cases c1; exact hc rfl

/-! ### Callbacks that do not return -/

theorem WExec.inCallback (h : WExec cfg tr w) {v : V} (hm : tr[m]? = some (.ev c (.cb (2 * t) v)))
    (hno : ∀ (n : Nat) (ok : Bool), m < n → tr[n]? ≠ some (.ev c (.cbEnd (2 * t) ok))) :
    ∃ rest aft, w.tpc t = .round (c :: rest) ∧ (w.st c).pc (2 * t) = .cbRun aft := by
  induction h with
  | nil => cases hm
  | @snoc tr w inp w' e h0 hs ih =>
    have hW := wstep_WStep hs
    rcases get_snoc.1 hm with h1 | ⟨rfl, rfl⟩
    · obtain ⟨rest, aft, b1, b2⟩ := ih h1 fun n ok hn hget => hno n ok hn (get_keep hget)
      by_cases he : ∃ e', e = .ev c e' ∧ e'.tid = 2 * t
      · obtain ⟨e', rfl, he'⟩ := he
        obtain ⟨ks, inp, s, c1, c2, c3, c4, c5⟩ := hW.mine he'
        exfalso
        cases inp <;> simp only [step, b2, reduceCtorEq, Option.some.injEq, Prod.mk.injEq] at c3
        rename_i ok
        refine hno tr.length ok (get_lt h1) ?_
        rw [← c3.2]; exact get_new
      · obtain ⟨c1, c2⟩ := hW.other b1 (by rw [b2]; nofun) fun e' h1 h2 => he ⟨e', h1, h2⟩
        rw [c1, c2]; exact ⟨rest, aft, b1, b2⟩
    · obtain ⟨ks, inp, s, c1, c2, c3, c4, c5⟩ := hW.mine rfl
      rcases c5 with ⟨_, _, c5⟩ | ⟨_, rest, rfl, ⟨_, c5⟩ | ⟨c5, _⟩⟩
      · cases c5
      · rw [c5, c4]
        refine ⟨rest, ?_⟩
        have hst := step_Step c3
        cases hst with
        | @cbCall _ aft => exact ⟨aft, c1, by simp [State.go]⟩
      · cases c5

/-- C118 is false: while a callback that the trimmer has called runs, the trimmer does nothing in any cache (but look whether one is registered), and the round
does not end. -/
theorem world_blocked_false (h : WExec cfg tr w) {v : V} (hm : tr[m]? = some (.ev c (.cb (2 * t) v)))
    (hno : ∀ (n : Nat) (ok : Bool), m < n → tr[n]? ≠ some (.ev c (.cbEnd (2 * t) ok))) :
    (∀ (n c' : Nat) (e : Ev K V), m < n → tr[n]? = some (.ev c' e) → e.tid = 2 * t → e = .tau (2 * t)) ∧
    ∀ n, m < n → tr[n]? ≠ some (.fin t) ∧ ∀ ks, tr[n]? ≠ some (.tick t ks) := by
  have key : ∀ {n : Nat} {e : WEv K V}, m < n → tr[n]? = some e → ∃ w0 w1 rest aft, WStep cfg w0 w1 e ∧ w0.tpc t = .round (c :: rest) ∧ (w0.st c).pc (2 * t) = .cbRun aft := by
    intro n e hn hget
    obtain ⟨w0, inp, w1, h1, h2⟩ := h.at hget
    obtain ⟨rest, aft, b1, b2⟩ := h1.inCallback (c := c) (t := t) (get_take'.2 ⟨hn, hm⟩) fun n' ok hn' hget' => hno n' ok hn' (get_take'.1 hget').2
    exact ⟨w0, w1, rest, aft, wstep_WStep h2, b1, b2⟩
  refine ⟨fun n c' e hn hget ht => ?_, fun n hn => ⟨fun hget => ?_, fun ks hget => ?_⟩⟩
  · obtain ⟨w0, w1, rest, aft, hW, b1, b2⟩ := key hn hget
    obtain ⟨ks, inp, s, c1, c2, c3, c4, c5⟩ := hW.mine ht
    rcases c5 with ⟨_, _, c5⟩ | ⟨_, rest', rfl, _⟩
    · exact c5
    · rw [b1] at c1; cases c1
      exfalso
      cases inp <;> simp only [step, b2, reduceCtorEq, Option.some.injEq, Prod.mk.injEq] at c3
      rename_i ok
      refine hno n ok hn ?_
      rw [hget, ← c3.2]
  · obtain ⟨w0, w1, rest, aft, hW, b1, b2⟩ := key hn hget
    cases hW with
    | fin a => rw [b1] at a; cases a
  · obtain ⟨w0, w1, rest, aft, hW, b1, b2⟩ := key hn hget
    cases hW with
    | tick a => rw [b1] at a; cases a

/-- What the trimmer's steps are. -/
def WIn.by (t : Nat) : WIn K V → Prop
  | .look t' _ | .run t' _ | .fin t' => t' = t
  | _ => False

/-- C118, partial: a round goes on unless a callback of some cache runs, or has panicked. Missing from the full claim: the trimmer does wait for callbacks, see
`world_blocked_false`. -/
theorem world_goes_on_partial (h : WExec cfg tr w) (ht : w.tpc t = .round ks) (hcb : ∀ c aft, (w.st c).pc (2 * t) ≠ .cbRun aft)
    (hp : ∀ c, (w.st c).pc (2 * t) ≠ .done .panicked) : ∃ inp w' e, inp.by t ∧ (∀ ok, inp ≠ .run t (.cbFin ok)) ∧ wstep cfg w inp = some (w', e) := by
  cases ks with
  | nil =>
    exact ⟨.fin t, { w with tpc := Function.update w.tpc t .wait }, .fin t, rfl, nofun, by simp only [wstep, ht]⟩
  | cons c ks =>
    have hi := (h.good_view.1.busy t c).2 ⟨_, ht, List.mem_cons_self ..⟩
    by_cases hr : (w.st c).pc (2 * t) = .tkReg
    · have hl : ∃ x, wstep cfg w (.look t c) = some x := by
        simp only [wstep, ht]
        rw [if_pos ⟨List.mem_cons_self .., isReg_iff.2 hr⟩]
        simp only [step, hr]
        exact ⟨_, rfl⟩
      obtain ⟨⟨w', e⟩, hl⟩ := hl
      exact ⟨.look t c, w', e, rfl, nofun, hl⟩
    · obtain ⟨inp, s', e, hs⟩ := sync_no_wait (world_cache h c) hi
      have hl : ∃ x, wstep cfg w (.run t inp) = some x := by
        simp only [wstep, ht]
        rw [if_neg (by rw [isReg_iff, isPanic_iff]; exact fun h => h.elim hr (hp c)), hs]
        exact ⟨_, rfl⟩
      obtain ⟨⟨w', e⟩, hl⟩ := hl
      refine ⟨.run t inp, w', e, rfl, fun ok hok => ?_, hl⟩
      cases hok
      cases hpc : (w.st c).pc (2 * t) <;> simp only [step, hpc, reduceCtorEq] at hs
      exact hcb c _ hpc

/-! ### Examples -/

/-- Running a schedule. -/
def wplay (cfg : Nat → Cfg V) : List (WIn K V) → List (WEv K V) → World K V → Option (List (WEv K V))
  | [], tr, _ => some tr
  | inp :: l, tr, w =>
    match wstep cfg w inp with
    | none => none
    | some (w', e) => wplay cfg l (tr ++ [e]) w'

theorem wplay_exec {l : List (WIn K V)} : ∀ {tr w}, WExec cfg tr w → ∀ {tr'}, wplay cfg l tr w = some tr' → ∃ w', WExec cfg tr' w' := by
  induction l with
  | nil => intro tr w h tr' h'; cases h'; exact ⟨_, h⟩
  | cons x l ih =>
    intro tr w h tr' h'
    simp only [wplay] at h'
    split at h'
    · cases h'
    · next w' e he => exact ih (h.snoc he) h'

/-- Two caches with callbacks are started, both hold an expired entry. -/
def twoCaches : List (WIn Nat Nat) :=
  [.user 0 1 (.call .start), .user 1 3 (.call .start), .user 0 1 .go, .user 1 3 .go, .once 0 1, .once 0 1, .once 0 1, .once 1 3, .user 0 1 .go, .user 1 3 .go] ++
  ([(0, 7), (1, 8)] : List (Nat × Nat)).flatMap fun (c, v) =>
    [.user c 1 (.call (.store 5 v 1000000)), .user c 1 (.time 0), .user c 1 .go, .user c 1 .go]

/-- What the trimmer does with a cache, up to its callback. -/
def trims (now : Int) (j : Nat) : List (WIn Nat Nat) := [.run 0 (.time now), .run 0 (.snap [5]), .run 0 (.visit j), .run 0 .go, .run 0 .go, .run 0 .go]

/-- One goroutine; the second cache does not make another. -/
example : (wplay (fun _ => SyncCache.cfg true) twoCaches [] .init).map (·.take 10) =
    some [.ev 0 (.call 1 .start), .ev 1 (.call 3 .start), .ev 0 (.reg 1 true), .ev 1 (.reg 3 true), .enter 0 1, .spawn 0 1 0, .leave 0 1, .skip 1 3, .ev 0 (.ret 1 .unit),
      .ev 1 (.ret 3 .unit)] := by rfl
/-- A round, from the second cache to the first. -/
example : (wplay (fun _ => SyncCache.cfg true) (twoCaches ++ [.tick 0 [1, 0], .look 0 0, .look 0 1] ++ trims 9000000 10 ++ [.run 0 (.cbFin true), .run 0 .go, .run 0 .go] ++
      trims 9000000 10 ++ [.run 0 (.cbFin true), .run 0 .go, .run 0 .go] ++ [.fin 0]) [] .init).map (·.drop 18) =
    some [.tick 0 [1, 0], .ev 0 (.tau 0), .ev 1 (.tau 0),
      .ev 1 (.clock 0 9000000), .ev 1 (.tau 0), .ev 1 (.tau 0), .ev 1 (.seen 0 0), .ev 1 (.del 0 5 0), .ev 1 (.cb 0 8), .ev 1 (.cbEnd 0 true), .ev 1 (.tau 0), .ev 1 (.ret 0 .unit),
      .ev 0 (.clock 0 9000000), .ev 0 (.tau 0), .ev 0 (.tau 0), .ev 0 (.seen 0 0), .ev 0 (.del 0 5 0), .ev 0 (.cb 0 7), .ev 0 (.cbEnd 0 true), .ev 0 (.tau 0), .ev 0 (.ret 0 .unit),
      .fin 0] := by rfl
/-- While the callback of the second cache runs the trimmer cannot go on. -/
example : (wplay (fun _ => SyncCache.cfg true) (twoCaches ++ [.tick 0 [1, 0], .look 0 0, .look 0 1] ++ trims 9000000 10) [] .init).isSome = true ∧
    wplay (fun _ => SyncCache.cfg true) (twoCaches ++ [.tick 0 [1, 0], .look 0 0, .look 0 1] ++ trims 9000000 10 ++ [.run 0 .go]) [] .init = none := ⟨rfl, rfl⟩

end Verif.SyncCache
