import Verif.SyncCache.ProcSim
/-!
# The trimmer of a process, and the calls of `caches` (C162): invariants
-/
namespace Verif.SyncCache.Proc
open Verif.Refresh (get_snoc get_lt get_keep get_new)
open RWMap (effects LEv AMap)
variable {K V : Type} [DecidableEq K]

/-! ## Steps of a thread -/

/-- What `Start` and `Close` do with `caches`. -/
def regOf : Op K V → Option Bool
  | .start => some true
  | .close => some false
  | _ => none

section
variable {c : Cfg V} {i j : Nat} {e : Ev K V} {st st' : State K V} {inp : In K V}

theorem step_call {op : Op K V} (h : step c [] st i inp = some (st', e)) (he : e = .call j op) : j = i ∧ st.pc i = .idle ∧ st'.pc i = enter op := by
  have := step_Step h
  cases this <;> cases he
  rename_i hp
  exact ⟨rfl, hp, by simp [State.go]⟩

theorem step_ret {r : Res V} (h : step c [] st i inp = some (st', e)) (he : e = .ret j r) : j = i ∧ st.pc i = .done r ∧ st'.pc i = .idle := by
  have := step_Step h
  cases this <;> cases he
  rename_i hp
  exact ⟨rfl, hp, by simp [State.go]⟩

theorem step_idle (h : step c [] st i inp = some (st', e)) (hi : st.pc i = .idle) : ∃ op, e = .call i op := by
  unfold step at h
  rw [hi] at h
  cases inp <;> first | cases h; done | skip
  simp only [Option.some.injEq, Prod.mk.injEq] at h
  exact ⟨_, h.2.symm⟩

theorem step_done {r : Res V} (h : step c [] st i inp = some (st', e)) (hi : st.pc i = .done r) : e = .ret i r := by
  unfold step at h
  rw [hi] at h
  cases inp <;> first | cases h; done | skip
  simp only [Option.some.injEq, Prod.mk.injEq] at h
  exact h.2.symm

theorem enter_regPut {op : Op K V} {b : Bool} : enter op = .regPut b ↔ regOf op = some b := by
  cases op <;> simp [enter, regOf, eq_comm]

/-- `caches` is reached only by a call. -/
theorem step_toReg {b : Bool} (h : step c [] st i inp = some (st', e)) (hc : isCaches (st.pc i) = false) (hb : st'.pc i = .regPut b) :
    ∃ op, e = .call i op ∧ regOf op = some b := by
  by_cases hi : st.pc i = .idle
  · obtain ⟨op, rfl⟩ := step_idle h hi
    exact ⟨op, rfl, enter_regPut.1 ((step_call h rfl).2.2.symm.trans hb)⟩
  · exact absurd hb ((step_regPut h hi fun b hb => by rw [hb] at hc; cases hc).1 b)

theorem step_toIdle (h : step c [] st i inp = some (st', e)) (hb : st'.pc i = .idle) : ∃ r, st.pc i = .done r := by
  have := step_Step h
  cases this <;> simp only [State.go, Function.update_self] at hb <;> first | cases hb; done | skip
  all_goals first
    | exact ⟨_, by assumption⟩
    | (rename_i op _; cases op <;> cases hb; done)
    | (revert hb; unfold afterDel; split <;> (try simp); unfold After.next; split <;> simp; done)
    | (revert hb; unfold Site.live; split <;> (try simp); unfold afterDel; split <;> (try simp); unfold After.next; split <;> simp; done)
    | (revert hb; unfold Site.dead; split <;> (try simp); unfold afterDel; split <;> (try simp); unfold After.next; split <;> simp; done)
    | (revert hb; unfold After.next; split <;> simp; done)
    | (revert hb; unfold Iter.visit; split <;> simp; done)
    | (revert hb; (repeat' split) <;> simp; done)
    | skip

variable {s s' : Client K V} {pr : Nat → RWMap.Op K Nat} {x : RWMap.Ev K Nat}

theorem sync_wait (h : s.sync c pr i x = some s') (hw : s.wait i = none) :
    s.st.pc i ≠ .idle ∧ (∀ b, s.st.pc i ≠ .regPut b) ∧ ∀ r, s.st.pc i ≠ .done r := by
  rcases sync_cases h with ⟨n, kind, rfl, h1, h2, h3, rfl⟩ | ⟨n, rfl, h1, h2, h3, rfl⟩ | ⟨n, k, a, kind, rfl, h1, h2, rfl⟩ | ⟨n, r, rfl, h1, rfl⟩ |
      ⟨n, kind, acc, rfl, h1, h2, rfl⟩
  · rw [h3]; exact ⟨nofun, nofun, nofun⟩
  · refine ⟨?_, ?_, ?_⟩ <;> intros <;> intro hp <;> rw [hp] at h2 <;> cases h2
  · rw [h2]; exact ⟨nofun, nofun, nofun⟩
  · rw [hw] at h1; cases h1
  · rw [h2]; exact ⟨nofun, nofun, nofun⟩

omit [DecidableEq K] in
theorem cont_new {p : PC K V} {r : RWMap.Res K Nat} : (p.cont c r = .idle → p = .idle) ∧ ∀ b, p.cont c r = .regPut b → p = .regPut b := by
  have aft : ∀ (a : After K V) b, a.next b ≠ .idle ∧ ∀ b', a.next b ≠ .regPut b' := by
    intro a b
    unfold After.next
    split <;> exact ⟨nofun, nofun⟩
  have del : ∀ n (a : After K V), afterDel c n a ≠ .idle ∧ ∀ b', afterDel c n a ≠ .regPut b' := by
    intro n a
    unfold afterDel
    split
    · exact ⟨nofun, nofun⟩
    · exact aft a true
  unfold PC.cont
  split <;> first
    | (refine ⟨fun h => ?_, fun b h => ?_⟩ <;> cases h; done)
    | exact ⟨fun h => absurd h (del _ _).1, fun b h => absurd h ((del _ _).2 b)⟩
    | exact ⟨fun h => absurd h (aft _ _).1, fun b h => absurd h ((aft _ _).2 b)⟩
    | exact ⟨id, fun _ => id⟩

theorem sync_new (h : s.sync c pr i x = some s') : (s'.st.pc i = .idle → s.st.pc i = .idle) ∧ ∀ b, s'.st.pc i = .regPut b → s.st.pc i = .regPut b := by
  rcases sync_cases h with ⟨n, kind, rfl, h1, h2, h3, rfl⟩ | ⟨n, rfl, h1, h2, h3, rfl⟩ | ⟨n, k, a, kind, rfl, h1, h2, rfl⟩ | ⟨n, r, rfl, h1, rfl⟩ |
      ⟨n, kind, acc, rfl, h1, h2, rfl⟩
  · simp [State.go]
  · exact ⟨id, fun _ => id⟩
  · simp only [State.go, Function.update_self, Iter.visit]
    split <;> exact ⟨nofun, nofun⟩
  · simp only [State.go, Function.update_self]; exact cont_new
  · simp [State.go]
end

variable {cfg : Nat → Cfg V} {prog : Nat → Nat → RWMap.Op K Nat} {rprog : Nat → RWMap.Op Nat Unit} {w w' : Process K V} {G G' : List (GEv K V)} {g : GEv K V}
  {c c' i j n m t t' p q : Nat} {b : Bool}

theorem PExec.pre (h : PExec cfg prog rprog G w) (n : Nat) : ∃ w', PExec cfg prog rprog (G.take n) w' := by
  rw [← List.take_append_drop n G] at h
  obtain ⟨w', h1, -⟩ := Path.split h
  exact ⟨w', h1⟩

theorem PExec.at (h : PExec cfg prog rprog G w) (hn : G[n]? = some g) : ∃ w0 w1, PExec cfg prog rprog (G.take n) w0 ∧ PStep cfg prog rprog w0 g w1 := by
  obtain ⟨hk, rfl⟩ := List.getElem?_eq_some_iff.1 hn
  have e : G = G.take n ++ G[n] :: G.drop (n + 1) := by rw [List.cons_getElem_drop_succ, List.take_append_drop]
  rw [e] at h
  obtain ⟨w0, h1, h2⟩ := Path.split h
  cases h2 with
  | cons h3 _ => exact ⟨w0, _, h1, h3⟩

/-! ## `startOnce` -/

structure OInv (G : List (GEv K V)) (w : Process K V) : Prop where
  fresh : w.once = .fresh → w.trims = 0 ∧ ∀ c i, w.stage c i ≠ .inside ∧ w.stage c i ≠ .leaving
  busy : w.once = .busy → ∃ c i, (∀ c' i', (w.stage c' i' = .inside ∨ w.stage c' i' = .leaving) → c' = c ∧ i' = i) ∧
    (w.stage c i = .inside ∧ w.trims = 0 ∨ w.stage c i = .leaving ∧ w.trims = 1)
  done : w.once = .done → w.trims = 1 ∧ ∀ c i, w.stage c i ≠ .inside ∧ w.stage c i ≠ .leaving
  none : w.trims = 0 → ∀ (n c i t : Nat), G[n]? ≠ some (.spawn c i t)
  one : w.trims = 1 → (∃ n c i : Nat, G[n]? = some (.spawn c i 0)) ∧ ∀ (n c i t m c' i' t' : Nat), G[n]? = some (.spawn c i t) → G[m]? = some (.spawn c' i' t') → n = m
  rp : ∀ c i b, i % 2 = 1 → (w.cl c).st.pc i = .regPut b → w.stage c i = .none
  tp : ∀ t, w.tpc t ≠ .wait → t < w.trims

omit [DecidableEq K] in
theorem OInv.keep (h : OInv G w) (he : ∀ c i t, g ≠ .spawn c i t) (h1 : w'.once = w.once) (h2 : w'.trims = w.trims)
    (h3 : ∀ c i, w.stage c i = w'.stage c i ∨ (w'.stage c i = .want ∨ w'.stage c i = .none) ∧ w.stage c i ≠ .inside ∧ w.stage c i ≠ .leaving)
    (h4 : ∀ c i b, i % 2 = 1 → (w'.cl c).st.pc i = .regPut b → w'.stage c i = .none) (h5 : ∀ t, w'.tpc t ≠ .wait → t < w.trims) : OInv (G ++ [g]) w' := by
  have out : ∀ c i, w.stage c i ≠ .inside ∧ w.stage c i ≠ .leaving → w'.stage c i ≠ .inside ∧ w'.stage c i ≠ .leaving := by
    intro c i hh
    rcases h3 c i with h | ⟨h | h, _⟩
    · rw [← h]; exact hh
    · rw [h]; exact ⟨nofun, nofun⟩
    · rw [h]; exact ⟨nofun, nofun⟩
  have sp : ∀ (n c i t : Nat), (G ++ [g])[n]? = some (.spawn c i t) → G[n]? = some (.spawn c i t) := by
    intro n c i t hn
    rcases get_snoc.1 hn with hn | ⟨_, hn⟩
    · exact hn
    · exact absurd hn.symm (he c i t)
  refine ⟨fun h0 => ?_, fun h0 => ?_, fun h0 => ?_, fun h0 n c i t hn => ?_, fun h0 => ?_, h4, by rw [h2]; exact h5⟩
  · rw [h1] at h0; rw [h2]; exact ⟨(h.fresh h0).1, fun c i => out c i ((h.fresh h0).2 c i)⟩
  · rw [h1] at h0; rw [h2]
    obtain ⟨c, i, a, b⟩ := h.busy h0
    have same : ∀ c' i', (w'.stage c' i' = .inside ∨ w'.stage c' i' = .leaving) → w.stage c' i' = w'.stage c' i' := by
      intro c' i' hh
      rcases h3 c' i' with h | ⟨h | h, _⟩
      · exact h
      · rw [h] at hh; rcases hh with hh | hh <;> cases hh
      · rw [h] at hh; rcases hh with hh | hh <;> cases hh
    have same' : (w.stage c i = .inside ∨ w.stage c i = .leaving) → w'.stage c i = w.stage c i := by
      intro hh
      rcases h3 c i with h | ⟨_, h, h'⟩
      · exact h.symm
      · rcases hh with hh | hh
        · exact absurd hh h
        · exact absurd hh h'
    refine ⟨c, i, fun c' i' hh => a c' i' (by rw [same c' i' hh]; exact hh), ?_⟩
    rw [same' (b.imp And.left And.left)]
    exact b
  · rw [h1] at h0; rw [h2]; exact ⟨(h.done h0).1, fun c i => out c i ((h.done h0).2 c i)⟩
  · rw [h2] at h0; exact h.none h0 n c i t (sp n c i t hn)
  · rw [h2] at h0
    obtain ⟨⟨n, c, i, a⟩, b⟩ := h.one h0
    exact ⟨⟨n, c, i, get_keep a⟩, fun n c i t m c' i' t' hn hm => b n c i t m c' i' t' (sp _ _ _ _ hn) (sp _ _ _ _ hm)⟩

theorem OInv.step (P : PInv rprog G w) (O : OInv G w) (hs : PStep cfg prog rprog w g w') : OInv (G ++ [g]) w' := by
  have keepT : ∀ {t' : Nat} {f : Nat → TPos}, (t' < w.trims) → (∀ t, t ≠ t' → f t = w.tpc t) → ∀ t, f t ≠ .wait → t < w.trims := by
    intro t' f h1 h2 t ht
    by_cases h : t = t'
    · rw [h]; exact h1
    · rw [h2 t h] at ht; exact O.tp t ht
  have upd : ∀ {t t' : Nat} {x : TPos}, t ≠ t' → Function.update w.tpc t' x t = w.tpc t := fun h => Function.update_of_ne h _ _
  cases hs with
  | @loc c i inp s' e hin ht hc hd hl =>
    obtain ⟨a1, a2, a3, a4⟩ := loc_other hl
    refine O.keep nofun rfl rfl (fun _ _ => .inl rfl) (fun c' i' b ho hp => ?_) O.tp
    by_cases hcc : c' = c
    · subst hcc
      by_cases hi : i' = i
      · subst hi
        rcases hin with hin | ⟨t, _, rfl, _⟩
        · exact hin.2
        · omega
      · exact O.rp c' i' b ho (by simpa [Process.setCl, a3 i' hi] using hp)
    · exact O.rp c' i' b ho (by simpa [Process.setCl, hcc] using hp)
  | tau h1 h2 h3 => exact O.keep nofun rfl rfl (fun _ _ => .inl rfl) O.rp O.tp
  | @sync c i n ord m' e s' hin h1 h2 h3 h4 =>
    obtain ⟨a1, a2⟩ := sync_other h4
    refine O.keep nofun rfl rfl (fun _ _ => .inl rfl) (fun c' i' b ho hp => ?_) O.tp
    by_cases hcc : c' = c
    · subst hcc
      by_cases hi : i' = i
      · subst hi
        rcases hin with hin | ⟨t, _, rfl, _⟩
        · exact hin.2
        · omega
      · exact O.rp c' i' b ho (by simpa [Process.setCl, (a1 i' hi).1] using hp)
    · exact O.rp c' i' b ho (by simpa [Process.setCl, hcc] using hp)
  | rtau h1 h2 h3 => exact O.keep nofun rfl rfl (fun _ _ => .inl rfl) O.rp O.tp
  | rinv => exact O.keep nofun rfl rfl (fun _ _ => .inl rfl) O.rp O.tp
  | @rret c i b n r ord m' h1 h2 h3 h4 h5 =>
    obtain ⟨hodd, -⟩ := P.rw _ _ _ h2
    have hst := O.rp c i b hodd h1
    refine O.keep nofun rfl rfl (fun c' i' => ?_) (fun c' i' b' ho hp => ?_) O.tp
    · simp only [Process.setStage]
      split
      · next h =>
        obtain ⟨rfl, rfl⟩ := h
        right
        rw [hst]
        refine ⟨?_, nofun, nofun⟩
        cases b <;> simp
      · exact .inl rfl
    · by_cases hcc : c' = c ∧ i' = i
      · obtain ⟨rfl, rfl⟩ := hcc
        simp [Process.setStage, Process.setCl, State.go] at hp
      · simp only [Process.setStage, hcc, if_false]
        refine O.rp c' i' b' ho ?_
        by_cases hc : c' = c
        · subst hc
          have : i' ≠ i := fun h => hcc ⟨rfl, h⟩
          simpa [Process.setStage, Process.setWait, Process.setCl, State.go, this] using hp
        · simpa [Process.setStage, Process.setWait, Process.setCl, State.go, hc] using hp
  | tick h1 h2 h3 => exact O.keep nofun rfl rfl (fun _ _ => .inl rfl) O.rp (keepT h2 fun t h => upd h)
  | @visit t n c ord m' h1 h2 h3 h4 =>
    refine O.keep nofun rfl rfl (fun _ _ => .inl rfl) (fun c' i' b ho hp => ?_) (keepT (O.tp t (by rw [h1]; nofun)) fun t h => upd h)
    by_cases hcc : c' = c
    · subst hcc
      have : i' ≠ 2 * t := by omega
      exact O.rp c' i' b ho (by simpa [Process.setCl, Process.setT, State.go, this] using hp)
    · exact O.rp c' i' b ho (by simpa [Process.setCl, Process.setT, hcc] using hp)
  | @back t n c h1 h2 h3 =>
    refine O.keep nofun rfl rfl (fun _ _ => .inl rfl) (fun c' i' b ho hp => ?_) (keepT (O.tp t (by rw [h1]; nofun)) fun t h => upd h)
    by_cases hcc : c' = c
    · subst hcc
      have : i' ≠ 2 * t := by omega
      exact O.rp c' i' b ho (by simpa [Process.setCl, Process.setT, State.go, this] using hp)
    · exact O.rp c' i' b ho (by simpa [Process.setCl, Process.setT, hcc] using hp)
  | @fin t n r ord m' h1 h2 h3 h4 =>
    exact O.keep nofun rfl rfl (fun _ _ => .inl rfl) O.rp (keepT (O.tp t (by rw [h1]; nofun)) fun t h => upd h)
  | @skip c i h1 h2 =>
    refine O.keep nofun rfl rfl (fun c' i' => ?_) (fun c' i' b ho hp => ?_) O.tp
    · simp only [Process.setStage]
      split
      · next h => obtain ⟨rfl, rfl⟩ := h; exact .inr ⟨.inr rfl, by rw [h1]; exact ⟨nofun, nofun⟩⟩
      · exact .inl rfl
    · simp only [Process.setStage]
      split
      · rfl
      · exact O.rp c' i' b ho hp
  | @enter c i h1 h2 =>
    have hf := O.fresh h2
    refine ⟨nofun, fun _ => ⟨c, i, fun c' i' hh => ?_, .inl ⟨by simp [Process.setStage], hf.1⟩⟩, nofun, fun _ n c' i' t hn => ?_, fun h => ?_,
      fun c' i' b ho hp => ?_, O.tp⟩
    · simp only [Process.setStage] at hh
      split at hh
      · next hc => exact hc
      · have := hf.2 c' i'
        rcases hh with hh | hh
        · exact absurd hh this.1
        · exact absurd hh this.2
    · rcases get_snoc.1 hn with hn | ⟨_, hn⟩
      · exact O.none hf.1 n c' i' t hn
      · cases hn
    · have h : w.trims = 1 := h
      rw [hf.1] at h; cases h
    · have := O.rp c' i' b ho hp
      simp only [Process.setStage]
      split
      · next h => obtain ⟨rfl, rfl⟩ := h; rw [h1] at this; cases this
      · exact this
  | @spawn c i h1 =>
    have hb : w.once = .busy := by
      cases ho : w.once with
      | fresh => exact absurd h1 ((O.fresh ho).2 c i).1
      | busy => rfl
      | done => exact absurd h1 ((O.done ho).2 c i).1
    obtain ⟨c0, i0, a, b⟩ := O.busy hb
    obtain ⟨rfl, rfl⟩ := a c i (.inl h1)
    have h0 : w.trims = 0 := by
      rcases b with b | b
      · exact b.2
      · rw [h1] at b; cases b.1
    refine ⟨fun h => ?_, fun _ => ⟨c, i, fun c' i' hh => ?_, .inr ⟨by simp [Process.setStage], by simp [Process.setStage, h0]⟩⟩, fun h => ?_, nofun, fun _ => ?_,
      fun c' i' b ho hp => ?_, fun t ht => ?_⟩
    · have h : w.once = .fresh := h
      rw [hb] at h; cases h
    · simp only [Process.setStage] at hh
      split at hh
      · next hc => exact hc
      · exact a c' i' hh
    · have h : w.once = .done := h
      rw [hb] at h; cases h
    · rw [h0]
      refine ⟨⟨_, c, i, get_new⟩, fun n c i t m c' i' t' hn hm => ?_⟩
      rcases get_snoc.1 hn with hn | ⟨hn, _⟩
      · exact (O.none h0 _ _ _ _ hn).elim
      · rcases get_snoc.1 hm with hm | ⟨hm, _⟩
        · exact (O.none h0 _ _ _ _ hm).elim
        · rw [hn, hm]
    · have := O.rp c' i' b ho hp
      simp only [Process.setStage]
      split
      · next h => obtain ⟨rfl, rfl⟩ := h; rw [h1] at this; cases this
      · exact this
    · have := O.tp t ht
      exact Nat.lt_succ_of_lt this
  | @leave c i h1 =>
    have hb : w.once = .busy := by
      cases ho : w.once with
      | fresh => exact absurd h1 ((O.fresh ho).2 c i).2
      | busy => rfl
      | done => exact absurd h1 ((O.done ho).2 c i).2
    obtain ⟨c0, i0, a, b⟩ := O.busy hb
    obtain ⟨rfl, rfl⟩ := a c i (.inr h1)
    have h0 : w.trims = 1 := by
      rcases b with b | b
      · rw [h1] at b; cases b.1
      · exact b.2
    refine ⟨nofun, nofun, fun _ => ⟨h0, fun c' i' => ?_⟩, fun h => ?_, fun _ => ?_, fun c' i' b ho hp => ?_, O.tp⟩
    · simp only [Process.setStage]
      split
      · exact ⟨nofun, nofun⟩
      · next hc => exact ⟨fun h => hc (a c' i' (.inl h)), fun h => hc (a c' i' (.inr h))⟩
    · have h : w.trims = 0 := h
      rw [h0] at h; cases h
    · obtain ⟨⟨n, c, i, a⟩, b⟩ := O.one h0
      refine ⟨⟨n, c, i, get_keep a⟩, fun n c i t m c' i' t' hn hm => b n c i t m c' i' t' ?_ ?_⟩
      · rcases get_snoc.1 hn with hn | ⟨_, hn⟩
        · exact hn
        · cases hn
      · rcases get_snoc.1 hm with hn | ⟨_, hn⟩
        · exact hn
        · cases hn
    · simp only [Process.setStage]
      split
      · rfl
      · exact O.rp c' i' b ho hp

theorem PExec.once (h : PExec cfg prog rprog G w) : OInv G w := by
  refine (Path.rev (P := fun G w => PInv rprog G w ∧ OInv G w) ⟨.init, ?_⟩ (fun hG ih hs => ⟨ih.1.step hG hs, ih.2.step ih.1 hs⟩) h).2
  exact ⟨fun _ => ⟨rfl, fun _ _ => ⟨nofun, nofun⟩⟩, nofun, nofun, (fun _ _ _ _ _ h => by simp at h), nofun, (fun _ _ _ _ h => by cases h), fun _ h => absurd rfl h⟩

theorem PExec.trims (h : PExec cfg prog rprog G w) : w.trims ≤ 1 := by
  have O := PExec.once h
  cases ho : w.once with
  | fresh => rw [(O.fresh ho).1]; exact Nat.zero_le _
  | done => exact Nat.le_of_eq (O.done ho).1
  | busy =>
    obtain ⟨_, _, _, b | b⟩ := O.busy ho <;> rw [b.2]
    exact Nat.zero_le _

theorem PExec.tpos (h : PExec cfg prog rprog G w) (ht : w.tpc t ≠ .wait) : t = 0 := by
  have := (PExec.once h).tp t ht
  have := PExec.trims h
  omega

/-! ## `Start` and `Close` -/

/-- The threads of the trimmer make no calls of their own. -/
theorem PExec.even (h : PExec cfg prog rprog G w) : ∀ t n c, w.tpc t = .round n (some c) → (w.cl c).st.pc (2 * t) ≠ .idle := by
  refine Path.rev (P := fun _ w => ∀ t n c, w.tpc t = .round n (some c) → (w.cl c).st.pc (2 * t) ≠ .idle) (fun _ _ _ h => by cases h) ?_ h
  intro G w g w' hG ih hs t n c ht
  have P := PExec.inv hG
  cases hs with
  | @loc c' i inp s' e hin ht' hc hd hl =>
    obtain ⟨a1, a2, a3, a4⟩ := loc_other hl
    by_cases hcc : c = c'
    · subst hcc
      simp only [Process.setCl, Function.update_self]
      by_cases hi : 2 * t = i
      · subst hi
        intro hp
        obtain ⟨r, hr⟩ := step_toIdle a4 hp
        have := hd (by omega)
        rw [hr] at this; cases this
      · rw [a3 _ hi]; exact ih t n c ht
    · simpa [Process.setCl, hcc] using ih t n c ht
  | @sync c' i n' ord m' e s' hin h1 h2 h3 h4 =>
    obtain ⟨a1, a2⟩ := sync_other h4
    by_cases hcc : c = c'
    · subst hcc
      simp only [Process.setCl, Function.update_self]
      by_cases hi : 2 * t = i
      · subst hi
        exact fun hp => ih t n c ht ((sync_new h4).1 hp)
      · rw [(a1 _ hi).1]; exact ih t n c ht
    · simpa [Process.setCl, hcc] using ih t n c ht
  | @rret c' i b n' r ord m' h1 h2 h3 h4 h5 =>
    have := (P.rw _ _ _ h2).1
    have hi : 2 * t ≠ i := by omega
    by_cases hcc : c = c'
    · subst hcc
      simpa [Process.setStage, Process.setCl, State.go, hi] using ih t n c ht
    · simpa [Process.setStage, Process.setWait, Process.setCl, hcc] using ih t n c ht
  | @tick t' n' ord m' h1 =>
    by_cases htt : t = t'
    · subst htt; simp [Process.setT] at ht
    · exact ih t n c (by simpa [Process.setT, htt] using ht)
  | @visit t' n' c' ord m' h1 =>
    by_cases htt : t = t'
    · subst htt
      simp [Process.setT, Process.setCl] at ht
      obtain ⟨rfl, rfl⟩ := ht
      simp [Process.setT, Process.setCl, State.go]
    · have h0 := ih t n c (by simpa [Process.setT, Process.setCl, htt] using ht)
      by_cases hcc : c = c'
      · subst hcc
        have : 2 * t ≠ 2 * t' := by omega
        simpa [Process.setT, Process.setCl, State.go, this] using h0
      · simpa [Process.setT, Process.setCl, hcc] using h0
  | @back t' n' c' h1 =>
    by_cases htt : t = t'
    · subst htt; simp [Process.setT, Process.setCl] at ht
    · have h0 := ih t n c (by simpa [Process.setT, Process.setCl, htt] using ht)
      by_cases hcc : c = c'
      · subst hcc
        have : 2 * t ≠ 2 * t' := by omega
        simpa [Process.setT, Process.setCl, State.go, this] using h0
      · simpa [Process.setT, Process.setCl, hcc] using h0
  | @fin t' n' r ord m' h1 =>
    by_cases htt : t = t'
    · subst htt; simp [Process.setT] at ht
    · exact ih t n c (by simpa [Process.setT, htt] using ht)
  | _ => exact ih t n c ht

theorem call_odd (h : PExec cfg prog rprog G w) {op : Op K V} (hp : G[p]? = some (.item c (.loc (.call i op)))) : i % 2 = 1 := by
  obtain ⟨w0, w1, h0, hs⟩ := PExec.at h hp
  cases hs with
  | @loc _ j inp s' _ hin ht' hc hd hl =>
    obtain ⟨a1, a2, a3, a4⟩ := loc_other hl
    obtain ⟨rfl, hi, -⟩ := step_call a4 rfl
    rcases hin with h | ⟨t, n, rfl, h⟩
    · exact h.1
    · exact absurd hi (PExec.even h0 t n c h)

/-- Where a thread is whose last call is `Start` or `Close`, made at `p`. -/
def Where (rprog : Nat → RWMap.Op Nat Unit) (G : List (GEv K V)) (w : Process K V) (c i p : Nat) (b : Bool) : Prop :=
  ((w.cl c).st.pc i = .idle ∧ (w.cl c).wait i = none) ∨
  ((w.cl c).st.pc i = .regPut b ∧ (w.cl c).wait i = none ∧ ∀ n, w.rwait c i = some n → ∃ a : Nat, p < a ∧ G[a]? = some (.reg (.inv n))) ∨
  ((w.cl c).st.pc i = .done .unit ∧ (w.cl c).wait i = none ∧ (b = true → w.stage c i = .none → ∃ (x : Nat) (c i t : Nat), G[x]? = some (.spawn c i t)) ∧
    ∃ (n a z : Nat) (r : RWMap.Res Nat Unit), p < a ∧ a < z ∧ G[a]? = some (.reg (.inv n)) ∧ G[z]? = some (.reg (.ret n r)) ∧ rprog n = regOp c b)

omit [DecidableEq K] in
theorem Where.keep (h : Where rprog G w c i p b) (h1 : (w'.cl c).st.pc i = (w.cl c).st.pc i) (h2 : (w'.cl c).wait i = (w.cl c).wait i) (h3 : w'.rwait c i = w.rwait c i)
    (h4 : w'.stage c i = .none → w.stage c i = .none ∨ ∃ (x : Nat) (c i t : Nat), (G ++ [g])[x]? = some (.spawn c i t)) : Where rprog (G ++ [g]) w' c i p b := by
  unfold Where
  rw [h1, h2, h3]
  rcases h with h | ⟨a1, a2, a3⟩ | ⟨a1, a2, a3, n, a, z, r, b1, b2, b3, b4, b5⟩
  · exact .inl h
  · refine .inr (.inl ⟨a1, a2, fun n hn => ?_⟩)
    obtain ⟨a, b1, b2⟩ := a3 n hn
    exact ⟨a, b1, get_keep b2⟩
  · refine .inr (.inr ⟨a1, a2, fun hb hs => ?_, n, a, z, r, b1, b2, get_keep b3, get_keep b4, b5⟩)
    rcases h4 hs with h | h
    · obtain ⟨x, c, i, t, hx⟩ := a3 hb h
      exact ⟨x, c, i, t, get_keep hx⟩
    · exact h

/-- The last call of thread `i` of cache `c` is the one at `p`. -/
def LastCall (G : List (GEv K V)) (c i p : Nat) (op : Op K V) : Prop :=
  G[p]? = some (.item c (.loc (.call i op))) ∧ ∀ (x : Nat) (op' : Op K V), p < x → G[x]? ≠ some (.item c (.loc (.call i op')))

omit [DecidableEq K] in
theorem LastCall.snoc {op : Op K V} (h : LastCall (G ++ [g]) c i p op) :
    (LastCall G c i p op ∧ ∀ op', g ≠ .item c (.loc (.call i op'))) ∨ (p = G.length ∧ g = .item c (.loc (.call i op))) := by
  rcases get_snoc.1 h.1 with h1 | ⟨h1, h2⟩
  · refine .inl ⟨⟨h1, fun x op' hx hg => h.2 x op' hx (get_keep hg)⟩, fun op' hg => ?_⟩
    exact h.2 G.length op' (get_lt h1) (by rw [hg]; exact get_new)
  · exact .inr ⟨h1, h2.symm⟩

theorem PExec.where_ (h : PExec cfg prog rprog G w) : ∀ c i p op b, i % 2 = 1 → regOf op = some b → LastCall G c i p op → Where rprog G w c i p b := by
  refine Path.rev (P := fun G w => ∀ c i p op b, i % 2 = 1 → regOf op = some b → LastCall G c i p op → Where rprog G w c i p b)
    (fun _ _ _ _ _ _ _ h => by have := h.1; simp at this) ?_ h
  intro G w g w' hG ih hs c i p op b ho hb hl
  have P := PExec.inv hG
  have O := PExec.once hG
  have quiet : ∀ {w' : Process K V}, (∀ op', g ≠ .item c (.loc (.call i op'))) → (w'.cl c).st.pc i = (w.cl c).st.pc i → (w'.cl c).wait i = (w.cl c).wait i →
      w'.rwait c i = w.rwait c i → (w'.stage c i = .none → w.stage c i = .none ∨ ∃ (x : Nat) (c i t : Nat), (G ++ [g])[x]? = some (.spawn c i t)) →
      Where rprog (G ++ [g]) w' c i p b := by
    intro w' h1 h2 h3 h4 h5
    rcases hl.snoc with ⟨hl, -⟩ | ⟨-, hg⟩
    · exact (ih c i p op b ho hb hl).keep h2 h3 h4 h5
    · exact absurd hg (h1 op)
  have spawned : w.trims = 1 → ∃ (x : Nat) (c i t : Nat), (G ++ [g])[x]? = some (.spawn c i t) := fun h => by
    obtain ⟨n, c, i, hn⟩ := (O.one h).1
    exact ⟨n, c, i, 0, get_keep hn⟩
  cases hs with
  | @loc c' j inp s' e hin ht' hc hd hloc =>
    obtain ⟨a1, a2, a3, a4⟩ := loc_other hloc
    by_cases hcc : c = c' ∧ i = j
    · obtain ⟨rfl, rfl⟩ := hcc
      have hst : w.stage c i = .none := by
        rcases hin with h | ⟨t, n, rfl, h⟩
        · exact h.2
        · omega
      have hnr : ∀ n, w.rwait c i ≠ some n := fun n h => by
        obtain ⟨-, ⟨b, hb, -⟩, -⟩ := P.rw _ _ _ h
        rw [hb] at hc; cases hc
      rcases hl.snoc with ⟨hl, hg⟩ | ⟨hp, hg⟩
      · rcases ih c i p op b ho hb hl with ⟨b1, b2⟩ | ⟨b1, -⟩ | ⟨b1, b2, -⟩
        · obtain ⟨op', rfl⟩ := step_idle a4 b1
          exact absurd rfl (hg op')
        · rw [b1] at hc; cases hc
        · have := step_done a4 b1
          subst this
          have := (step_ret a4 rfl).2.2
          exact .inl ⟨by simpa [Process.setCl] using this, by simpa [Process.setCl, a1] using a2⟩
      · cases hg
        have := (step_call a4 rfl).2.2
        rw [enter_regPut.2 hb] at this
        exact .inr (.inl ⟨by simpa [Process.setCl] using this, by simpa [Process.setCl, a1] using a2, fun n hn => absurd hn (hnr n)⟩)
    · have hg : ∀ op', (GEv.item c' (.loc e) : GEv K V) ≠ .item c (.loc (.call i op')) := by
        rintro op' hg
        cases hg
        exact hcc ⟨rfl, (step_call a4 rfl).1⟩
      by_cases hc' : c = c'
      · subst hc'
        have : i ≠ j := fun h => hcc ⟨rfl, h⟩
        exact quiet hg (by simp [Process.setCl, a3 i this]) (by simp [Process.setCl, a1]) rfl .inl
      · exact quiet hg (by simp [Process.setCl, hc']) (by simp [Process.setCl, hc']) rfl .inl
  | tau => exact quiet nofun rfl rfl rfl .inl
  | @sync c' j n ord m' e s' hin h1 h2 h3 h4 =>
    obtain ⟨a1, a2⟩ := sync_other h4
    by_cases hc' : c = c'
    · subst hc'
      by_cases hj : i = j
      · subst hj
        rcases hl.snoc with ⟨hl, -⟩ | ⟨-, hg⟩
        · rcases ih c i p op b ho hb hl with ⟨b1, b2⟩ | ⟨b1, b2, -⟩ | ⟨b1, b2, -⟩
          · exact absurd b1 (sync_wait h4 b2).1
          · exact absurd b1 ((sync_wait h4 b2).2.1 b)
          · exact absurd b1 ((sync_wait h4 b2).2.2 _)
        · cases hg
      · exact quiet nofun (by simp [Process.setCl, (a1 i hj).1]) (by simp [Process.setCl, (a1 i hj).2]) rfl .inl
    · exact quiet nofun (by simp [Process.setCl, hc']) (by simp [Process.setCl, hc']) rfl .inl
  | rtau => exact quiet nofun rfl rfl rfl .inl
  | @rinv c' j b' n ord m' h1 h2 h3 h4 h5 h6 h7 h8 =>
    by_cases hcc : c = c' ∧ i = j
    · obtain ⟨rfl, rfl⟩ := hcc
      rcases hl.snoc with ⟨hl, -⟩ | ⟨-, hg⟩
      · rcases ih c i p op b ho hb hl with ⟨b1, b2⟩ | ⟨b1, b2, -⟩ | ⟨b1, b2, -⟩
        · rw [h2] at b1; cases b1
        · refine .inr (.inl ⟨b1, b2, fun n' hn' => ?_⟩)
          simp [Process.setWait] at hn'
          subst hn'
          exact ⟨_, get_lt hl.1, get_new⟩
        · rw [h2] at b1; cases b1
      · cases hg
    · exact quiet nofun rfl rfl (by simp [Process.setWait, hcc]) .inl
  | @rret c' j b' n r ord m' h1 h2 h3 h4 h5 =>
    by_cases hcc : c = c' ∧ i = j
    · obtain ⟨rfl, rfl⟩ := hcc
      rcases hl.snoc with ⟨hl, -⟩ | ⟨-, hg⟩
      · rcases ih c i p op b ho hb hl with ⟨b1, b2⟩ | ⟨b1, b2, b3⟩ | ⟨b1, b2, -⟩
        · rw [h1] at b1; cases b1
        · rw [h1] at b1; cases b1
          obtain ⟨a, c1, c2⟩ := b3 n h2
          obtain ⟨-, ⟨b', hb', hop⟩, -⟩ := P.rw _ _ _ h2
          rw [h1] at hb'; cases hb'
          refine .inr (.inr ⟨by simp [Process.setCl, Process.setStage, State.go], by simpa [Process.setCl, Process.setStage] using b2, fun hb hs => ?_,
            n, a, _, r, c1, get_lt c2, get_keep c2, get_new, hop⟩)
          subst hb
          simp [Process.setStage] at hs
        · rw [h1] at b1; cases b1
      · cases hg
    · have hst : ∀ {w : Process K V} {x}, (w.setStage c' j x).stage c i = w.stage c i := by simp [Process.setStage, hcc]
      by_cases hc' : c = c'
      · subst hc'
        have : i ≠ j := fun h => hcc ⟨rfl, h⟩
        exact quiet nofun (by simp [Process.setCl, Process.setStage, State.go, this]) (by simp [Process.setCl, Process.setStage])
          (by simp [Process.setCl, Process.setStage, Process.setWait, this]) (by rw [hst]; exact .inl)
      · exact quiet nofun (by simp [Process.setCl, Process.setStage, Process.setWait, hc']) (by simp [Process.setCl, Process.setStage, Process.setWait, hc'])
          (by simp [Process.setCl, Process.setStage, Process.setWait, hc']) (by rw [hst]; exact .inl)
  | @enter c' j h1 h2 =>
    refine quiet nofun rfl rfl rfl fun h => ?_
    by_cases hcc : c = c' ∧ i = j
    · obtain ⟨rfl, rfl⟩ := hcc; simp [Process.setStage] at h
    · simp [Process.setStage, hcc] at h; exact .inl h
  | @skip c' j h1 h2 =>
    exact quiet nofun rfl rfl rfl fun _ => .inr (spawned (O.done h2).1)
  | @spawn c' j h1 =>
    exact quiet nofun rfl rfl rfl fun _ => .inr ⟨_, _, _, _, get_new⟩
  | @leave c' j h1 =>
    refine quiet nofun rfl rfl rfl fun _ => .inr (spawned ?_)
    cases ho : w.once with
    | fresh => exact absurd h1 ((O.fresh ho).2 c' j).2
    | done => exact (O.done ho).1
    | busy =>
      obtain ⟨c0, i0, a, b⟩ := O.busy ho
      obtain ⟨rfl, rfl⟩ := a c' j (.inr h1)
      rcases b with b | b
      · rw [h1] at b; cases b.1
      · exact b.2
  | tick => exact quiet nofun rfl rfl rfl .inl
  | @visit t n c' ord m' h1 =>
    have : i ≠ 2 * t := by omega
    by_cases hc' : c = c'
    · subst hc'
      exact quiet nofun (by simp [Process.setCl, Process.setT, State.go, this]) (by simp [Process.setCl, Process.setT]) rfl .inl
    · exact quiet nofun (by simp [Process.setCl, Process.setT, hc']) (by simp [Process.setCl, Process.setT, hc']) rfl .inl
  | @back t n c' h1 =>
    have : i ≠ 2 * t := by omega
    by_cases hc' : c = c'
    · subst hc'
      exact quiet nofun (by simp [Process.setCl, Process.setT, State.go, this]) (by simp [Process.setCl, Process.setT]) rfl .inl
    · exact quiet nofun (by simp [Process.setCl, Process.setT, hc']) (by simp [Process.setCl, Process.setT, hc']) rfl .inl
  | fin => exact quiet nofun rfl rfl rfl .inl

/-- The call of `caches` that a call of `Start` or `Close` has made, and the goroutine that trims. -/
theorem start_reg (h : PExec cfg prog rprog G w) {op : Op K V} {r : Res V} (hb : regOf op = some b) (hp : G[p]? = some (.item c (.loc (.call i op))))
    (hq : G[q]? = some (.item c (.loc (.ret i r)))) (hpq : p < q) (hno : ∀ (x : Nat) (op' : Op K V), p < x → x < q → G[x]? ≠ some (.item c (.loc (.call i op')))) :
    (∃ (n a z : Nat) (r : RWMap.Res Nat Unit), p < a ∧ a < z ∧ z < q ∧ G[a]? = some (.reg (.inv n)) ∧ G[z]? = some (.reg (.ret n r)) ∧ rprog n = regOp c b) ∧
      (b = true → ∃ (x c i t : Nat), x < q ∧ G[x]? = some (.spawn c i t)) := by
  obtain ⟨w0, w1, h0, hs⟩ := PExec.at h hq
  have ho := call_odd h hp
  have take : ∀ {x : Nat} {y : GEv K V}, (G.take q)[x]? = some y → x < q ∧ G[x]? = some y := by
    intro x y hx
    have : x < q := by have := get_lt hx; simp at this; omega
    exact ⟨this, by rwa [List.getElem?_take_of_lt this] at hx⟩
  have hl : LastCall (G.take q) c i p op := by
    refine ⟨by rw [List.getElem?_take_of_lt hpq]; exact hp, fun x op' hx hg => ?_⟩
    exact hno x op' hx (take hg).1 (take hg).2
  have hW := PExec.where_ h0 c i p op b ho hb hl
  have hpc : (w0.cl c).st.pc i = .done r ∧ (i % 2 = 1 → w0.stage c i = .none) := by
    cases hs with
    | loc hin _ _ _ hloc =>
      obtain ⟨a1, a2, a3, a4⟩ := loc_other hloc
      obtain ⟨rfl, b, -⟩ := step_ret a4 rfl
      refine ⟨b, fun ho => ?_⟩
      rcases hin with h | ⟨t, n, rfl, h⟩
      · exact h.2
      · omega
    | back => omega
  rcases hW with ⟨a, -⟩ | ⟨a, -⟩ | ⟨a1, a2, a3, n, a, z, r, b1, b2, b3, b4, b5⟩
  · rw [hpc.1] at a; cases a
  · rw [hpc.1] at a; cases a
  · refine ⟨⟨n, a, z, r, b1, b2, (take b4).1, (take b3).2, (take b4).2, b5⟩, fun hb => ?_⟩
    obtain ⟨x, c, i, t, hx⟩ := a3 hb (hpc.2 ho)
    exact ⟨x, c, i, t, (take hx).1, (take hx).2⟩

/-- Whose call of `caches` it is. -/
def Whose (G : List (GEv K V)) (w : Process K V) (c n i p : Nat) : Prop :=
  (∃ (z : Nat) (r : RWMap.Res Nat Unit), G[z]? = some (.reg (.ret n r)) ∧ ∀ (x : Nat) (r' : Res V), p < x → G[x]? = some (.item c (.loc (.ret i r'))) → z < x) ∨
  (w.rwait c i = some n ∧ ∀ (x : Nat) (r' : Res V), p < x → G[x]? ≠ some (.item c (.loc (.ret i r'))))

theorem PExec.whose (h : PExec cfg prog rprog G w) :
    (∀ c i b, i % 2 = 1 → (w.cl c).st.pc i = .regPut b → ∃ (p : Nat) (op : Op K V), regOf op = some b ∧ G[p]? = some (.item c (.loc (.call i op))) ∧
      ∀ (x : Nat) (r : Res V), p < x → G[x]? ≠ some (.item c (.loc (.ret i r)))) ∧
    ∀ (n a c : Nat) (b : Bool), G[a]? = some (.reg (.inv n)) → rprog n = regOp c b →
      ∃ (i p : Nat) (op : Op K V), i % 2 = 1 ∧ regOf op = some b ∧ p < a ∧ G[p]? = some (.item c (.loc (.call i op))) ∧ Whose G w c n i p := by
  refine Path.rev (P := fun G w =>
    (∀ c i b, i % 2 = 1 → (w.cl c).st.pc i = .regPut b → ∃ (p : Nat) (op : Op K V), regOf op = some b ∧ G[p]? = some (.item c (.loc (.call i op))) ∧
      ∀ (x : Nat) (r : Res V), p < x → G[x]? ≠ some (.item c (.loc (.ret i r)))) ∧
    ∀ (n a c : Nat) (b : Bool), G[a]? = some (.reg (.inv n)) → rprog n = regOp c b →
      ∃ (i p : Nat) (op : Op K V), i % 2 = 1 ∧ regOf op = some b ∧ p < a ∧ G[p]? = some (.item c (.loc (.call i op))) ∧ Whose G w c n i p)
    ⟨(fun _ _ _ _ h => by cases h), fun _ _ _ _ h => by simp at h⟩ ?_ h
  rintro G w g w' hG ⟨ih1, ih2⟩ hs
  have P := PExec.inv hG
  have retOld : ∀ {c i : Nat} {x : Nat} {r : Res V}, (∀ r, g ≠ .item c (.loc (.ret i r))) → (G ++ [g])[x]? = some (.item c (.loc (.ret i r))) →
      G[x]? = some (.item c (.loc (.ret i r))) := by
    intro c i x r hg hx
    rcases get_snoc.1 hx with h | ⟨-, h⟩
    · exact h
    · exact absurd h.symm (hg r)
  -- the thread with the call of `caches` does not return
  have noRet : ∀ {c i : Nat} {b : Bool}, (w.cl c).st.pc i = .regPut b → ∀ r, g ≠ .item c (.loc (.ret i r)) := by
    rintro c i b hp r rfl
    cases hs with
    | loc _ _ _ _ hl =>
      obtain ⟨-, -, -, a4⟩ := loc_other hl
      obtain ⟨rfl, h, -⟩ := step_ret a4 rfl
      rw [hp] at h; cases h
    | back _ h => rw [hp] at h; cases h
  have keep1 : ∀ {c i : Nat} {b : Bool}, i % 2 = 1 → (w.cl c).st.pc i = .regPut b → ∃ (p : Nat) (op : Op K V), regOf op = some b ∧
      (G ++ [g])[p]? = some (.item c (.loc (.call i op))) ∧ ∀ (x : Nat) (r : Res V), p < x → (G ++ [g])[x]? ≠ some (.item c (.loc (.ret i r))) := by
    intro c i b ho hp
    obtain ⟨p, op, h1, h2, h3⟩ := ih1 c i b ho hp
    exact ⟨p, op, h1, get_keep h2, fun x r hx hg => h3 x r hx (retOld (noRet hp) hg)⟩
  have keep2 : ∀ {n a c : Nat} {b : Bool}, (∀ i, w.rwait c i = some n → w'.rwait c i = some n ∨ ∃ r, g = .reg (.ret n r)) → G[a]? = some (.reg (.inv n)) →
      rprog n = regOp c b → ∃ (i p : Nat) (op : Op K V), i % 2 = 1 ∧ regOf op = some b ∧ p < a ∧ (G ++ [g])[p]? = some (.item c (.loc (.call i op))) ∧
        Whose (G ++ [g]) w' c n i p := by
    intro n a c b hw ha hn
    obtain ⟨i, p, op, h1, h2, h3, h4, h5⟩ := ih2 n a c b ha hn
    refine ⟨i, p, op, h1, h2, h3, get_keep h4, ?_⟩
    rcases h5 with ⟨z, r, h5, h6⟩ | ⟨h5, h6⟩
    · refine .inl ⟨z, r, get_keep h5, fun x r' hx hg => ?_⟩
      rcases get_snoc.1 hg with hg | ⟨rfl, -⟩
      · exact h6 x r' hx hg
      · exact get_lt h5
    · obtain ⟨-, ⟨b', hb', -⟩, -⟩ := P.rw _ _ _ h5
      have h6' : ∀ (x : Nat) (r' : Res V), p < x → (G ++ [g])[x]? ≠ some (.item c (.loc (.ret i r'))) := fun x r' hx hg => h6 x r' hx (retOld (noRet hb') hg)
      rcases hw i h5 with h | ⟨r, rfl⟩
      · exact .inr ⟨h, h6'⟩
      · exact .inl ⟨_, r, get_new, fun x r' hx hg => absurd hg (h6' x r' hx)⟩
  have invOld : ∀ {n a : Nat}, (∀ n, g ≠ .reg (.inv n)) → (G ++ [g])[a]? = some (.reg (.inv n)) → G[a]? = some (.reg (.inv n)) := by
    intro n a hg hx
    rcases get_snoc.1 hx with h | ⟨-, h⟩
    · exact h
    · exact absurd h.symm (hg n)
  have quiet : (∀ n, g ≠ .reg (.inv n)) → (∀ c i b, i % 2 = 1 → (w'.cl c).st.pc i = .regPut b → (w.cl c).st.pc i = .regPut b) →
      (∀ c i n, w.rwait c i = some n → w'.rwait c i = some n ∨ ∃ r, g = .reg (.ret n r)) →
      (∀ c i b, i % 2 = 1 → (w'.cl c).st.pc i = .regPut b → ∃ (p : Nat) (op : Op K V), regOf op = some b ∧
        (G ++ [g])[p]? = some (.item c (.loc (.call i op))) ∧ ∀ (x : Nat) (r : Res V), p < x → (G ++ [g])[x]? ≠ some (.item c (.loc (.ret i r)))) ∧
      ∀ (n a c : Nat) (b : Bool), (G ++ [g])[a]? = some (.reg (.inv n)) → rprog n = regOp c b →
        ∃ (i p : Nat) (op : Op K V), i % 2 = 1 ∧ regOf op = some b ∧ p < a ∧ (G ++ [g])[p]? = some (.item c (.loc (.call i op))) ∧ Whose (G ++ [g]) w' c n i p :=
    fun h1 h2 h3 => ⟨fun c i b ho hp => keep1 ho (h2 c i b ho hp), fun n a c b ha hn => keep2 (fun i => h3 c i n) (invOld h1 ha) hn⟩
  cases hs with
  | @loc c' j inp s' e hin ht' hc hd hl =>
    obtain ⟨a1, a2, a3, a4⟩ := loc_other hl
    refine ⟨fun c i b ho hp => ?_, fun n a c b ha hn => keep2 (fun i h => .inl h) (invOld nofun ha) hn⟩
    by_cases hcc : c = c'
    · subst hcc
      simp only [Process.setCl, Function.update_self] at hp
      by_cases hij : i = j
      · subst hij
        obtain ⟨op, rfl, hb⟩ := step_toReg a4 hc hp
        refine ⟨_, op, hb, get_new, fun x r hx hg => ?_⟩
        have := get_lt hg
        simp at this; omega
      · rw [a3 i hij] at hp; exact keep1 ho hp
    · simp [Process.setCl, hcc] at hp
      exact keep1 ho hp
  | tau => exact quiet nofun (fun _ _ _ _ => id) fun _ _ _ => .inl
  | @sync c' j n ord m' e s' hin h1 h2 h3 h4 =>
    obtain ⟨a1, a2⟩ := sync_other h4
    refine quiet nofun (fun c i b ho hp => ?_) fun _ _ _ => .inl
    by_cases hcc : c = c'
    · subst hcc
      simp only [Process.setCl, Function.update_self] at hp
      by_cases hij : i = j
      · subst hij; exact (sync_new h4).2 b hp
      · rw [(a1 i hij).1] at hp; exact hp
    · simpa [Process.setCl, hcc] using hp
  | rtau => exact quiet nofun (fun _ _ _ _ => id) fun _ _ _ => .inl
  | @rinv c' j b' n ord m' h1 h2 h3 h4 h5 h6 h7 h8 =>
    refine ⟨fun c i b ho hp => keep1 ho hp, fun n' a c b ha hn => ?_⟩
    rcases get_snoc.1 ha with ha | ⟨rfl, he⟩
    · refine keep2 (fun i hi => .inl ?_) ha hn
      simp only [Process.setWait]
      split
      · next h => obtain ⟨rfl, rfl⟩ := h; rw [h4] at hi; cases hi
      · exact hi
    · cases he
      obtain ⟨rfl, rfl⟩ := regOp_inj (hn.symm.trans h5)
      obtain ⟨p, op, c1, c2, c3⟩ := ih1 c j b h1 h2
      exact ⟨j, p, op, h1, c1, get_lt c2, get_keep c2, .inr ⟨by simp [Process.setWait], fun x r hx hg => c3 x r hx (retOld (noRet h2) hg)⟩⟩
  | @rret c' j b' n r ord m' h1 h2 h3 h4 h5 =>
    refine quiet nofun (fun c i b ho hp => ?_) fun c i n' hn => ?_
    · by_cases hcc : c = c'
      · subst hcc
        by_cases hij : i = j
        · subst hij; simp [Process.setStage, Process.setCl, State.go] at hp
        · simpa [Process.setStage, Process.setCl, State.go, hij] using hp
      · simpa [Process.setStage, Process.setWait, Process.setCl, hcc] using hp
    · by_cases hcc : c = c' ∧ i = j
      · obtain ⟨rfl, rfl⟩ := hcc
        rw [h2] at hn; cases hn
        exact .inr ⟨r, rfl⟩
      · left
        show (if c = c' ∧ i = j then none else w.rwait c i) = some n'
        rw [if_neg hcc]; exact hn
  | enter => exact quiet nofun (fun _ _ _ _ => id) fun _ _ _ => .inl
  | skip => exact quiet nofun (fun _ _ _ _ => id) fun _ _ _ => .inl
  | spawn => exact quiet nofun (fun _ _ _ _ => id) fun _ _ _ => .inl
  | leave => exact quiet nofun (fun _ _ _ _ => id) fun _ _ _ => .inl
  | @tick t n ord m' h1 h2 h3 =>
    refine ⟨fun c i b ho hp => keep1 ho hp, fun n' a c b ha hn => ?_⟩
    rcases get_snoc.1 ha with ha | ⟨rfl, he⟩
    · exact keep2 (fun i hi => .inl hi) ha hn
    · cases he
      exact absurd (hn.symm.trans h3) regOp_ne_range
  | @visit t n c' ord m' h1 =>
    refine quiet nofun (fun c i b ho hp => ?_) fun _ _ _ => .inl
    have : i ≠ 2 * t := by omega
    by_cases hcc : c = c'
    · subst hcc; simpa [Process.setT, Process.setCl, State.go, this] using hp
    · simpa [Process.setT, Process.setCl, hcc] using hp
  | @back t n c' h1 =>
    refine quiet nofun (fun c i b ho hp => ?_) fun _ _ _ => .inl
    have : i ≠ 2 * t := by omega
    by_cases hcc : c = c'
    · subst hcc; simpa [Process.setT, Process.setCl, State.go, this] using hp
    · simpa [Process.setT, Process.setCl, hcc] using hp
  | fin => exact quiet nofun (fun _ _ _ _ => id) fun _ _ _ => .inl

end Verif.SyncCache.Proc
