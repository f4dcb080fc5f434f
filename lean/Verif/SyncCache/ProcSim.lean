import Verif.SyncCache.Proc
/-!
# One cache of a process over the steps of `RWMap` (C162)

What a cache of a process does, a cache by itself does (`Sys.lean`), whose `caches` is an atomic flag: in the linearization of the calls of `caches`, `Start` and
`Close` set the flag when their calls take effect, and the trimmer looks at it at the instant at which, by C02, the cache was there.
-/
namespace Verif.SyncCache.Proc
open RWMap (effects LEv AMap)
variable {K V : Type}

/-- An event of the process, or call `n` of `caches` takes effect. -/
inductive XEv (K V : Type) where
  | g (e : GEv K V)
  | eff (n : Nat)

def XEv.g? : XEv K V → Option (GEv K V)
  | .g e => some e
  | .eff _ => none

def toLev : RWMap.Ev Nat Unit → LEv Nat Unit
  | .inv n => .inv n
  | .visit n k v => .visit n k v
  | .ret n r => .ret n r

def XEv.lev? : XEv K V → Option (LEv Nat Unit)
  | .g (.reg e) => some (toLev e)
  | .g _ => none
  | .eff n => some (.eff n)

def gs (X : List (XEv K V)) : List (GEv K V) := X.filterMap XEv.g?
def ls (X : List (XEv K V)) : List (LEv Nat Unit) := X.filterMap XEv.lev?

theorem toLev_ev {x : LEv Nat Unit} {e : RWMap.Ev Nat Unit} (h : x.ev? = some e) : x = toLev e := by
  cases x <;> cases h <;> rfl

theorem ls_ev (X : List (XEv K V)) : (ls X).filterMap LEv.ev? = regs (gs X) := by
  induction X with
  | nil => rfl
  | cons x X ih =>
    cases x with
    | eff n => exact ih
    | g e =>
      cases e with
      | reg e =>
        have : ∀ e, (toLev e).ev? = some e := fun e => by cases e <;> rfl
        simp only [ls, gs, regs, List.filterMap_cons, XEv.lev?, XEv.g?, GEv.reg?, this] at ih ⊢
        rw [ih]
      | _ => exact ih

theorem merge {G : List (GEv K V)} : ∀ {L : List (LEv Nat Unit)}, L.filterMap LEv.ev? = regs G → ∃ X, gs X = G ∧ ls X = L := by
  induction G with
  | nil =>
    intro L h
    induction L with
    | nil => exact ⟨[], rfl, rfl⟩
    | cons x L ih =>
      cases x with
      | eff n =>
        obtain ⟨X, h1, h2⟩ := ih h
        exact ⟨.eff n :: X, h1, by simp [ls, XEv.lev?] at h2 ⊢; exact h2⟩
      | _ => cases h
  | cons e G ihG =>
    intro L h
    have plain : e.reg? = none → ∃ X, gs X = e :: G ∧ ls X = L := by
      intro he
      obtain ⟨X, h1, h2⟩ := ihG (L := L) (by rw [h]; simp [regs, he])
      refine ⟨.g e :: X, ?_, ?_⟩
      · simp only [gs, List.filterMap_cons, XEv.g?] at h1 ⊢; rw [h1]
      · have : (XEv.g e).lev? = none := by cases e <;> first | rfl | cases he
        simp only [ls, List.filterMap_cons, this] at h2 ⊢; exact h2
    cases he : e.reg? with
    | none => exact plain he
    | some r =>
      have hr : e = .reg r := by cases e <;> cases he; rfl
      subst hr
      induction L with
      | nil => cases h
      | cons x L ih =>
        cases hx : x.ev? with
        | none =>
          cases x with
          | eff n =>
            obtain ⟨X, h1, h2⟩ := ih h (fun h => by cases h)
            exact ⟨.eff n :: X, h1, by simp [ls, XEv.lev?] at h2 ⊢; exact h2⟩
          | _ => cases hx
        | some r' =>
          simp only [List.filterMap_cons, hx, regs, GEv.reg?, List.cons.injEq] at h
          obtain ⟨rfl, h⟩ := h
          obtain ⟨X, h1, h2⟩ := ihG h
          refine ⟨.g (.reg r') :: X, ?_, ?_⟩
          · simp only [gs, List.filterMap_cons, XEv.g?] at h1 ⊢; rw [h1]
          · rw [toLev_ev hx]
            simp only [ls, List.filterMap_cons, XEv.lev?] at h2 ⊢; rw [h2]

/-- Events that are not in the process: `Start` and `Close` set the flag, the trimmer looks at it. -/
def keep : Ev K V → Bool
  | .reg _ _ => false
  | .call _ .tick => false
  | _ => true

/-! ## Steps that do not depend on the flag -/

variable [DecidableEq K]

section
variable {c : Cfg V} {i : Nat} {e : Ev K V}

theorem step_same {st st' : State K V} {inp : In K V} {f : Nat → PC K V} {r : Bool} (hf : f i = st.pc i) (hc : isCaches (st.pc i) = false)
    (h : step c [] st i inp = some (st', e)) :
    step c [] { st with pc := f, reg := r } i inp = some ({ st' with pc := Function.update f i (st'.pc i), reg := r }, e) := by
  unfold step at h ⊢
  simp only [hf]
  split at h <;> first | (cases h; done) | skip
  all_goals rename_i hpc
  all_goals try simp only [hpc]
  all_goals first
    | (rw [hpc] at hc; cases hc; done)
    | (cases h; simp [State.go, State.mk_]; done)
    | (split at h <;> first | (cases h; done) | (cases h; simp_all [State.go, State.mk_]; done) | skip)
  rename_i hif
  rw [if_pos hif]
  cases h
  simp [State.go]

theorem step_keep {st st' : State K V} {inp : In K V} (hc : isCaches (st.pc i) = false) (ht : inp.isTick = false) (h : step c [] st i inp = some (st', e)) :
    keep e = true := by
  have := step_Step h
  cases this <;> first | rfl | skip
  · next op hp =>
    cases op <;> first | rfl | skip
    unfold step at h
    rw [hp] at h
    cases inp with
    | call op => simp only [Option.some.injEq, Prod.mk.injEq] at h; cases h.2; cases ht
    | _ => cases h
  · next hp => rw [hp] at hc; cases hc

theorem sync_same {s s' : Client K V} {prog : Nat → RWMap.Op K Nat} {x : RWMap.Ev K Nat} {f : Nat → PC K V} {r : Bool} (hf : f i = s.st.pc i)
    (h : s.sync c prog i x = some s') :
    Client.sync c prog ⟨{ s.st with pc := f, reg := r }, s.wait⟩ i x = some ⟨{ s'.st with pc := Function.update f i (s'.st.pc i), reg := r }, s'.wait⟩ := by
  rcases sync_cases h with ⟨n, kind, rfl, h1, h2, h3, rfl⟩ | ⟨n, rfl, h1, h2, h3, rfl⟩ | ⟨n, k, a, kind, rfl, h1, h2, rfl⟩ | ⟨n, r, rfl, h1, rfl⟩ |
      ⟨n, kind, acc, rfl, h1, h2, rfl⟩
  · rw [h3] at h2 hf
    simp only [Client.sync, hf, h1, h2, and_self, if_true]
    simp [State.go]
  · have hu : Function.update f i (s.st.pc i) = f := by rw [← hf]; exact Function.update_eq_self _ _
    simp only [Client.sync, hf, h1, h2, and_self, if_true, hu]
  · simp only [Client.sync, hf, h1, h2, if_true]
    simp [State.go]
  · simp only [Client.sync, hf, h1, if_true]
    simp [State.go]
  · simp only [Client.sync, hf, h1, h2, if_true]
    simp [State.go]

theorem loc_same {s s' : Client K V} {inp : In K V} {f : Nat → PC K V} {r : Bool} (hf : f i = s.st.pc i) (hc : isCaches (s.st.pc i) = false)
    (h : s.loc c i inp = some (s', e)) :
    Client.loc c ⟨{ s.st with pc := f, reg := r }, s.wait⟩ i inp = some (⟨{ s'.st with pc := Function.update f i (s'.st.pc i), reg := r }, s'.wait⟩, e) := by
  unfold Client.loc at h ⊢
  simp only [hf]
  split at h
  · next hh =>
    obtain ⟨x, hx, hy⟩ := Option.map_eq_some_iff.1 h
    cases hy
    rw [if_pos hh, step_same hf hc hx]
    rfl
  · cases h
end

/-! ## The cache of the process and the cache by itself -/

/-- Thread `i` of cache `c` of the process, and where it is in the cache by itself: `Start` or `Close` whose call of `caches` has taken effect; the trimmer that will
find the cache; any other. `L` is what has happened to `caches`, `Mk n` says that the look of call `n` of `caches.Range` at cache `c` is past. -/
def Thr (c : Nat) (L : List (LEv Nat Unit)) (Mk : Nat → Prop) (w : Process K V) (i : Nat) (spc : PC K V) : Prop :=
  (∃ n b, w.rwait c i = some n ∧ .eff n ∈ L ∧ (w.cl c).st.pc i = .regPut b ∧ spc = .done .unit) ∨
  (∃ n, i % 2 = 0 ∧ (w.tpc (i / 2)).call? = some n ∧ Mk n ∧ .visit n c () ∉ L ∧ (w.cl c).st.pc i = .idle ∧ spc = .trNow) ∨
  (spc = (w.cl c).st.pc i ∧ (∀ n, w.rwait c i = some n → .eff n ∉ L) ∧ (i % 2 = 0 → ∀ n, (w.tpc (i / 2)).call? = some n → Mk n → .visit n c () ∈ L))

structure Rel (rprog : Nat → RWMap.Op Nat Unit) (c : Nat) (G : List (GEv K V)) (L : List (LEv Nat Unit)) (Mk : Nat → Prop) (w : Process K V) (T : List (Item K V))
    (s : Client K V) : Prop where
  wait : s.wait = (w.cl c).wait
  st : s.st = { (w.cl c).st with pc := s.st.pc, reg := s.st.reg }
  reg : s.st.reg = (effects uEq rprog L AMap.empty c).isSome
  thr : ∀ i, Thr c L Mk w i (s.st.pc i)
  maps : T.filterMap Item.map? = (items c G).filterMap Item.map?
  logs : (log T).filter keep = log (items c G)

variable {cfg : Nat → Cfg V} {prog : Nat → Nat → RWMap.Op K Nat} {rprog : Nat → RWMap.Op Nat Unit} {w w' : Process K V} {G G' : List (GEv K V)} {g : GEv K V}
  {c i n t : Nat} {L L' : List (LEv Nat Unit)} {Mk Mk' : Nat → Prop} {T T' : List (Item K V)} {s s' : Client K V} {spc : PC K V}

omit [DecidableEq K] in
theorem Thr.other (h : Thr c L Mk w i spc) (hcl : (w'.cl c).st.pc i = (w.cl c).st.pc i) (hrw : w'.rwait c i = w.rwait c i) (htp : (w'.tpc (i / 2)).call? = (w.tpc (i / 2)).call?)
    (heff : ∀ n, w.rwait c i = some n → (.eff n ∈ L' ↔ .eff n ∈ L))
    (hvis : ∀ n, i % 2 = 0 → (w.tpc (i / 2)).call? = some n → (.visit n c () ∈ L' ↔ .visit n c () ∈ L)) :
    Thr c L' Mk w' i spc := by
  unfold Thr at h ⊢
  rw [hcl, hrw, htp]
  rcases h with ⟨n, b, h1, h2, h3, h4⟩ | ⟨n, h1, h2, h3, h4, h5, h6⟩ | ⟨h1, h2, h3⟩
  · exact .inl ⟨n, b, h1, (heff n h1).2 h2, h3, h4⟩
  · exact .inr (.inl ⟨n, h1, h2, h3, fun h => h4 ((hvis n h1 h2).1 h), h5, h6⟩)
  · exact .inr (.inr ⟨h1, fun n hn h => h2 n hn ((heff n hn).1 h), fun hi n hn hm => (hvis n hi hn).2 (h3 hi n hn hm)⟩)

omit [DecidableEq K] in
theorem Rel.other (R : Rel rprog c G L Mk w T s) (hcl : w'.cl c = w.cl c) (hL : effects uEq rprog L' AMap.empty c = effects uEq rprog L AMap.empty c)
    (hG : items c G' = items c G) (hthr : ∀ i, Thr c L Mk w i (s.st.pc i) → Thr c L' Mk' w' i (s.st.pc i)) : Rel rprog c G' L' Mk' w' T s where
  wait := by rw [hcl]; exact R.wait
  st := by rw [hcl]; exact R.st
  reg := by rw [hL]; exact R.reg
  thr := fun i => hthr i (R.thr i)
  maps := by rw [hG]; exact R.maps
  logs := by rw [hG]; exact R.logs

omit [DecidableEq K] in
/-- A thread in the cache is where it is in the cache by itself. -/
theorem Rel.eq (R : Rel rprog c G L Mk w T s) (P : PInv rprog G w) (hL : L.filterMap LEv.ev? = regs G) (hin : w.In c i) (hnr : ∀ n, w.rwait c i ≠ some n) :
    s.st.pc i = (w.cl c).st.pc i := by
  rcases R.thr i with ⟨n, b, h1, -⟩ | ⟨n, h1, h2, h3, h4, -⟩ | ⟨h, -⟩
  · exact absurd h1 (hnr n)
  · rcases hin with ⟨h5, -⟩ | ⟨t, n', rfl, h6⟩
    · omega
    · have : 2 * t / 2 = t := by omega
      rw [this, h6] at h2
      cases h2
      have := P.cur _ _ _ h6
      rw [← hL, List.mem_filterMap] at this
      obtain ⟨x, hx, hy⟩ := this
      rw [toLev_ev hy] at hx
      exact absurd hx h4
  · exact h

omit [DecidableEq K] in
theorem Rel.own (R : Rel rprog c G L Mk w T s) (P : PInv rprog G w) (hL : L.filterMap LEv.ev? = regs G) (hin : w.In c i) (hnr : ∀ n, w.rwait c i ≠ some n)
    (hpc : ∀ j, j ≠ i → s'.st.pc j = (w.cl c).st.pc j) {m : Nat → RWMap.State K Nat} {x : Item K V} (hx : ∀ e, x = .loc e → keep e = true) :
    Rel rprog c (G ++ [.item c x]) L Mk { w.setCl c s' with mp := m } (T ++ [x])
      ⟨{ s'.st with pc := Function.update s.st.pc i (s'.st.pc i), reg := s.st.reg }, s'.wait⟩ where
  wait := by simp [Process.setCl]
  st := by simp [Process.setCl]
  reg := R.reg
  thr := fun j => by
    by_cases hj : j = i
    · subst hj
      refine .inr (.inr ⟨by simp [Process.setCl], fun n h => absurd h (hnr n), fun hj n hn hm => ?_⟩)
      rcases R.thr j with ⟨n', b, h1, -⟩ | ⟨n', h1, h2, h3, h4, -⟩ | ⟨-, -, h⟩
      · exact absurd h1 (hnr n')
      · rcases hin with ⟨h5, -⟩ | ⟨t, n'', rfl, h6⟩
        · omega
        · have : 2 * t / 2 = t := by omega
          rw [this, h6] at h2
          cases h2
          have := P.cur _ _ _ h6
          rw [← hL, List.mem_filterMap] at this
          obtain ⟨x, hx, hy⟩ := this
          rw [toLev_ev hy] at hx
          exact absurd hx h4
      · exact h hj n hn hm
    · rw [show (⟨{ s'.st with pc := Function.update s.st.pc i (s'.st.pc i), reg := s.st.reg }, s'.wait⟩ : Client K V).st.pc j = s.st.pc j by simp [hj]]
      exact (R.thr j).other (by simp [Process.setCl, hpc j hj]) rfl rfl (fun _ _ => .rfl) (fun _ _ _ => .rfl)
  maps := by
    rw [items_snoc, List.filterMap_append, List.filterMap_append, R.maps]
    simp [GEv.on]
  logs := by
    have := R.logs
    simp only [log] at this ⊢
    rw [items_snoc]
    simp only [GEv.on, if_true, Option.toList, List.filterMap_append, List.filter_append]
    rw [this]
    cases x with
    | map => rfl
    | loc e =>
      have hk := hx e rfl
      simp only [List.filterMap_cons, Item.loc?, List.filterMap_nil]
      cases hv : e.visible <;> simp [hv, hk]

/-- What is known of the future. -/
structure Facts (rprog : Nat → RWMap.Op Nat Unit) (c : Nat) (G : List (GEv K V)) (L : List (LEv Nat Unit)) (Mk : Nat → Prop) (g : GEv K V) : Prop where
  hL : L.filterMap LEv.ev? = regs G
  inv : ∀ n, Mk n → .inv n ∈ L
  ret : ∀ n r, g = .reg (.ret n r) → Mk n → .visit n c () ∈ L
  vis : ∀ n, g = .reg (.visit n c ()) → Mk n ∧ .visit n c () ∉ L
  eff : ∀ n r, g = .reg (.ret n r) → (rprog n).isMap = true → .eff n ∈ L
  new : ∀ n, g = .reg (.inv n) → .inv n ∉ L ∧ ((rprog n).isMap = true → .eff n ∉ L)

omit [DecidableEq K] in
theorem effects_g (L : List (LEv Nat Unit)) (g : GEv K V) (A : AMap Nat Unit) : effects uEq rprog (L ++ (XEv.g g).lev?.toList) A = effects uEq rprog L A := by
  rw [RWMap.effects_append]
  cases g with
  | reg e => cases e <;> rfl
  | _ => rfl

omit [DecidableEq K] in
theorem eff_g {g : GEv K V} : .eff n ∈ L ++ (XEv.g g).lev?.toList ↔ .eff n ∈ L := by
  rw [List.mem_append]
  cases g with
  | reg e => cases e <;> simp [XEv.lev?, toLev]
  | _ => simp [XEv.lev?]

omit [DecidableEq K] in
theorem vis_g {g : GEv K V} : .visit n c () ∈ L ++ (XEv.g g).lev?.toList ↔ .visit n c () ∈ L ∨ g = .reg (.visit n c ()) := by
  rw [List.mem_append]
  cases g with
  | reg e => cases e <;> simp [XEv.lev?, toLev, eq_comm]
  | _ => simp [XEv.lev?]

theorem Rel.move (P : PInv rprog G w) (R : Rel rprog c G L Mk w T s) (F : Facts rprog c G L Mk g) (hs : PStep cfg prog rprog w g w') :
    ∃ T' s', (Sys (cfg c) (prog c) T s (w.mp c) → Sys (cfg c) (prog c) T' s' (w'.mp c)) ∧ Rel rprog c (G ++ [g]) (L ++ (XEv.g g).lev?.toList) Mk w' T' s' := by
  have hse : s = ⟨{ (w.cl c).st with pc := s.st.pc, reg := s.st.reg }, (w.cl c).wait⟩ := by
    rw [← R.wait, ← R.st]
  have quiet : ∀ {w' : Process K V}, g.on c = none → (∀ n, g ≠ .reg (.visit n c ())) → w'.cl c = w.cl c → (∀ i, w'.rwait c i = w.rwait c i) →
      (∀ t, (w'.tpc t).call? = (w.tpc t).call?) → w'.mp c = w.mp c →
      ∃ T' s', (Sys (cfg c) (prog c) T s (w.mp c) → Sys (cfg c) (prog c) T' s' (w'.mp c)) ∧ Rel rprog c (G ++ [g]) (L ++ (XEv.g g).lev?.toList) Mk w' T' s' := by
    intro w' h1 h2 h3 h4 h5 h6
    refine ⟨T, s, fun h => h6 ▸ h, R.other h3 (congrFun (effects_g L g _) c) (by rw [items_snoc, h1]; simp) fun i h => h.other (by rw [h3]) (h4 i) (h5 _) (fun _ _ => eff_g) fun n _ _ => ?_⟩
    rw [vis_g]
    exact ⟨fun h => h.resolve_right (h2 n), .inl⟩
  cases hs with
  | @loc c' i inp s' e hin ht hc hd hl =>
    by_cases hcc : c' = c
    · subst hcc
      obtain ⟨a1, a2, a3, a4⟩ := loc_other hl
      have hnr : ∀ n, w.rwait c' i ≠ some n := fun n h => by
        obtain ⟨-, ⟨b, hb, -⟩, -⟩ := P.rw _ _ _ h
        rw [hb] at hc; cases hc
      refine ⟨_, _, fun h => h.loc (e := e) (i := i) (inp := inp) ?_, by
        rw [show (XEv.g (.item c' (.loc e))).lev?.toList = [] from rfl, List.append_nil]
        exact R.own P F.hL hin hnr a3 (s' := s') (m := w.mp) (x := .loc e) (fun e' he => by cases he; exact step_keep hc ht a4)⟩
      rw [hse]
      exact loc_same (R.eq P F.hL hin hnr) hc hl
    · exact quiet (by simp [GEv.on, hcc]) (fun _ h => by cases h) (by simp [Process.setCl, Ne.symm hcc]) (fun _ => rfl) (fun _ => rfl) rfl
  | @tau c' n ord m' h1 h2 h3 =>
    by_cases hcc : c' = c
    · subst hcc
      refine ⟨T, s, fun h => by simpa using h.tau h1 h2 h3, R.other rfl (congrFun (effects_g L _ _) c') (by rw [items_snoc]; simp [GEv.on]) fun i h => ?_⟩
      exact h.other rfl rfl rfl (fun _ _ => eff_g) fun n _ _ => by rw [vis_g]; simp
    · exact quiet rfl (fun _ h => by cases h) rfl (fun _ => rfl) (fun _ => rfl) (by simp [Ne.symm hcc])
  | @sync c' i n ord m' e s' hin h1 h2 h3 h4 =>
    by_cases hcc : c' = c
    · subst hcc
      obtain ⟨a1, a2⟩ := sync_other h4
      have hnr : ∀ n, w.rwait c' i ≠ some n := fun n h => by
        obtain ⟨-, ⟨b, hb, -⟩, hw, -⟩ := P.rw _ _ _ h
        exact a2 b hw hb
      refine ⟨_, _, fun h => by
          have := h.sync h1 h2 h3 (i := i) (s' := ⟨{ s'.st with pc := Function.update s.st.pc i (s'.st.pc i), reg := s.st.reg }, s'.wait⟩)
            (by rw [hse]; exact sync_same (R.eq P F.hL hin hnr) h4)
          simpa using this, by
        simpa [XEv.lev?] using R.own P F.hL hin hnr (fun j hj => (a1 j hj).1) (s' := s') (m := Function.update w.mp c' m') (x := .map e) (fun e' he => by cases he)⟩
    · exact quiet (by simp [GEv.on, hcc]) (fun _ h => by cases h) (by simp [Process.setCl, Ne.symm hcc]) (fun _ => rfl) (fun _ => rfl) (by simp [Ne.symm hcc])
  | rtau h1 h2 h3 => exact quiet rfl (fun _ h => by cases h) rfl (fun _ => rfl) (fun _ => rfl) rfl
  | enter => exact quiet rfl (fun _ h => by cases h) rfl (fun _ => rfl) (fun _ => rfl) rfl
  | skip => exact quiet rfl (fun _ h => by cases h) rfl (fun _ => rfl) (fun _ => rfl) rfl
  | spawn => exact quiet rfl (fun _ h => by cases h) rfl (fun _ => rfl) (fun _ => rfl) rfl
  | leave => exact quiet rfl (fun _ h => by cases h) rfl (fun _ => rfl) (fun _ => rfl) rfl
  | @back t n c' ht hp hw =>
    have htp : ∀ t', ((Function.update w.tpc t (.round n none)) t').call? = (w.tpc t').call? := by
      intro t'
      by_cases h : t' = t
      · subst h; simp [TPos.call?, ht]
      · simp [h]
    by_cases hcc : c' = c
    · subst hcc
      have hin : w.In c' (2 * t) := .inr ⟨t, n, rfl, ht⟩
      have hnr : ∀ n, w.rwait c' (2 * t) ≠ some n := fun n h => by have := (P.rw _ _ _ h).1; omega
      have hl : (w.cl c').loc (cfg c') (2 * t) .go = some (⟨(w.cl c').st.go (2 * t) .idle, (w.cl c').wait⟩, .ret (2 * t) .unit) := by
        simp [Client.loc, hw, hp, PC.mapOp, PC.isIter, step]
      obtain ⟨a1, a2, a3, a4⟩ := loc_other hl
      have R' := R.own P F.hL hin hnr a3 (m := w.mp) (x := .loc (.ret (2 * t) .unit)) (fun e' he => by cases he; rfl)
      refine ⟨_, _, fun h => h.loc (e := .ret (2 * t) .unit) (i := 2 * t) (inp := .go) ?_, by
        rw [show (XEv.g (.item c' (.loc (.ret (2 * t) .unit)) : GEv K V)).lev?.toList = [] from rfl, List.append_nil]
        exact R'.other rfl rfl rfl fun i h => h.other rfl rfl (htp _) (fun _ _ => .rfl) (fun _ _ _ => .rfl)⟩
      rw [hse]
      exact loc_same (R.eq P F.hL hin hnr) (by rw [hp]; rfl) hl
    · exact quiet (by simp [GEv.on, hcc]) (fun _ h => by cases h) (by simp [Process.setCl, Process.setT, Ne.symm hcc]) (fun _ => rfl) htp rfl
  | @rinv c' i b n ord m' h1 h2 h3 h4 h5 h6 h7 h8 =>
    by_cases hcc : c' = c
    · subst hcc
      refine ⟨T, s, id, R.other rfl (congrFun (effects_g L _ _) c') (by rw [items_snoc]; simp [GEv.on]) fun j h => ?_⟩
      by_cases hj : j = i
      · subst hj
        rcases h with ⟨n', b', a1, -⟩ | ⟨n', a1, -⟩ | ⟨a1, a2, a3⟩
        · rw [h4] at a1; cases a1
        · omega
        · refine .inr (.inr ⟨a1, fun n' hn' he => ?_, fun hj => by omega⟩)
          simp [Process.setWait] at hn'
          subst hn'
          exact (F.new n rfl).2 (by rw [h5]; exact regOp_isMap) (eff_g.1 he)
      · exact h.other rfl (by simp [Process.setWait, hj]) rfl (fun _ _ => eff_g) fun n _ _ => by rw [vis_g]; simp
    · exact quiet rfl (fun _ h => by cases h) rfl (fun _ => by simp [Process.setWait, Ne.symm hcc]) (fun _ => rfl) rfl
  | @rret c' i b n r ord m' h1 h2 h3 h4 h5 =>
    have hop := (P.rw _ _ _ h2).2.1
    by_cases hcc : c' = c
    · subst hcc
      have heff : .eff n ∈ L := F.eff n r rfl (by obtain ⟨b, -, h⟩ := hop; rw [h]; exact regOp_isMap)
      refine ⟨T, s, id, ⟨by simpa [Process.setCl, Process.setStage, Process.setWait] using R.wait, by
        simpa [Process.setCl, Process.setStage, Process.setWait, State.go] using R.st, by rw [effects_g]; exact R.reg, fun j => ?_,
        by rw [items_snoc]; simpa [GEv.on] using R.maps, by rw [items_snoc]; simpa [GEv.on] using R.logs⟩⟩
      by_cases hj : j = i
      · subst hj
        refine .inr (.inr ⟨?_, fun n' hn' => ?_, fun hj => ?_⟩)
        · rcases R.thr j with ⟨n', b', a1, a2, a3, a4⟩ | ⟨n', a1, -⟩ | ⟨a1, a2, a3⟩
          · simp [Process.setCl, Process.setStage, State.go, a4]
          · have := (P.rw _ _ _ h2).1; omega
          · exact absurd heff (a2 n h2)
        · simp [Process.setCl, Process.setStage, Process.setWait] at hn'
        · have := (P.rw _ _ _ h2).1; omega
      · exact (R.thr j).other (by simp [Process.setCl, Process.setStage, State.go, hj]) (by simp [Process.setCl, Process.setStage, Process.setWait, hj]) rfl (fun _ _ => eff_g)
          fun n _ _ => by rw [vis_g]; simp
    · exact quiet rfl (fun _ h => by cases h) (by simp [Process.setCl, Process.setStage, Process.setWait, Ne.symm hcc])
        (fun _ => by simp [Process.setCl, Process.setStage, Process.setWait, Ne.symm hcc]) (fun _ => rfl) rfl
  | @tick t n ord m' h1 h2 h3 h4 h5 h6 =>
    refine ⟨T, s, id, R.other rfl (congrFun (effects_g L _ _) c) (by rw [items_snoc]; simp [GEv.on]) fun j h => ?_⟩
    by_cases hj : j / 2 = t
    · rcases h with ⟨n', b', a1, a2, a3, a4⟩ | ⟨n', a1, a2, -⟩ | ⟨a1, a2, a3⟩
      · exact .inl ⟨n', b', a1, eff_g.2 a2, a3, a4⟩
      · rw [hj, h1] at a2; cases a2
      · refine .inr (.inr ⟨a1, fun n' hn' he => a2 n' hn' (eff_g.1 he), fun _ n' hn' hm => ?_⟩)
        simp [Process.setT, hj, TPos.call?] at hn'
        subst hn'
        exact absurd (F.inv n hm) (F.new n rfl).1
    · exact h.other rfl rfl (by simp [Process.setT, hj]) (fun _ _ => eff_g) fun n _ _ => by rw [vis_g]; simp
  | @visit t n c' ord m' h1 h2 h3 h4 =>
    have htp : ∀ t', (Function.update w.tpc t (.round n (some c')) t').call? = (w.tpc t').call? := by
      intro t'
      by_cases hh : t' = t
      · subst hh; simp [TPos.call?, h1]
      · simp [hh]
    by_cases hcc : c' = c
    · subst hcc
      obtain ⟨f1, f2⟩ := F.vis n rfl
      refine ⟨T, s, id, ⟨by simpa [Process.setCl, Process.setT] using R.wait, by
        simpa [Process.setCl, Process.setT, State.go] using R.st, by rw [effects_g]; exact R.reg, fun j => ?_,
        by rw [items_snoc]; simpa [GEv.on] using R.maps, by rw [items_snoc]; simpa [GEv.on] using R.logs⟩⟩
      by_cases hj : j = 2 * t
      · subst hj
        have h2t : 2 * t / 2 = t := by omega
        have hct : (w.tpc t).call? = some n := by rw [h1]; rfl
        refine .inr (.inr ⟨?_, fun n' hn' => ?_, fun _ n' hn' _ => ?_⟩)
        · rcases R.thr (2 * t) with ⟨n', b', a1, a2, a3, a4⟩ | ⟨n', a1, a2, a3, a4, a5, a6⟩ | ⟨a1, a2, a3⟩
          · have := (P.rw _ _ _ a1).1; omega
          · simp [Process.setCl, State.go, a6]
          · exact absurd (a3 (by omega) n (by rw [h2t]; exact hct) f1) f2
        · have := (P.rw _ _ _ hn').1; omega
        · rw [h2t] at hn'
          have := (htp t).symm.trans hn'
          rw [hct] at this
          cases this
          exact vis_g.2 (.inr rfl)
      · refine (R.thr j).other (by simp [Process.setCl, Process.setT, State.go, hj]) rfl (htp _) (fun _ _ => eff_g) fun n' hje hn' => ?_
        rw [vis_g]
        refine ⟨fun h => h.resolve_right fun he => ?_, .inl⟩
        cases he
        have := P.tpU _ _ _ hn' (by rw [h1]; rfl)
        omega
    · refine quiet rfl (fun _ h => by cases h; exact hcc rfl) (by simp [Process.setCl, Process.setT, Ne.symm hcc]) (fun _ => rfl) htp rfl
  | @fin t n r ord m' h1 h2 h3 h4 =>
    refine ⟨T, s, id, R.other rfl (congrFun (effects_g L _ _) c) (by rw [items_snoc]; simp [GEv.on]) fun j h => ?_⟩
    by_cases hj : j / 2 = t
    · rcases h with ⟨n', b', a1, a2, a3, a4⟩ | ⟨n', a1, a2, a3, a4, -⟩ | ⟨a1, a2, a3⟩
      · exact .inl ⟨n', b', a1, eff_g.2 a2, a3, a4⟩
      · rw [hj, h1] at a2; cases a2
        exact absurd (F.ret n r rfl a3) a4
      · refine .inr (.inr ⟨a1, fun n' hn' he => a2 n' hn' (eff_g.1 he), fun _ n' hn' hm => ?_⟩)
        simp [Process.setT, hj, TPos.call?] at hn'
    · exact h.other rfl rfl (by simp [Process.setT, hj]) (fun _ _ => eff_g) fun n _ _ => by rw [vis_g]; simp

omit [DecidableEq K] in
theorem mem_L (hL : L.filterMap LEv.ev? = regs G) {e : RWMap.Ev Nat Unit} : e ∈ regs G ↔ toLev e ∈ L := by
  rw [← hL, List.mem_filterMap]
  constructor
  · rintro ⟨x, hx, hy⟩
    rw [← toLev_ev hy]; exact hx
  · intro h
    exact ⟨_, h, by cases e <;> rfl⟩

/-- Call `n` of `caches` takes effect. -/
theorem Rel.eff (P : PInv rprog G w) (R : Rel rprog c G L Mk w T s) (hL : L.filterMap LEv.ev? = regs G)
    (h : (rprog n).isMap = true → .inv n ∈ L ∧ (∀ r, .ret n r ∉ L) ∧ .eff n ∉ L) :
    ∃ T' s', (Sys (cfg c) (prog c) T s (w.mp c) → Sys (cfg c) (prog c) T' s' (w.mp c)) ∧ Rel rprog c G (L ++ [.eff n]) Mk w T' s' := by
  have hse : s = ⟨{ (w.cl c).st with pc := s.st.pc, reg := s.st.reg }, (w.cl c).wait⟩ := by
    rw [← R.wait, ← R.st]
  have heq : effects uEq rprog (L ++ [.eff n]) AMap.empty = (RWMap.apply uEq (rprog n) (effects uEq rprog L AMap.empty)).1 := by
    rw [RWMap.effects_append]; rfl
  by_cases hm : ∃ b, rprog n = regOp c b
  · obtain ⟨b, hb⟩ := hm
    obtain ⟨h1, h2, h3⟩ := h (by rw [hb]; exact regOp_isMap)
    obtain ⟨i, hi⟩ : ∃ i, w.rwait c i = some n := by
      rcases P.opn n ((mem_L hL (e := .inv n)).2 h1) with ⟨r, hr⟩ | ⟨c', i, hi⟩ | ⟨t, ht⟩
      · exact absurd ((mem_L hL).1 hr) (h2 r)
      · obtain ⟨-, ⟨b', -, hb'⟩, -⟩ := P.rw _ _ _ hi
        rw [hb] at hb'
        obtain ⟨rfl, -⟩ := regOp_inj hb'
        exact ⟨i, hi⟩
      · have := (P.tp _ _ ht).2.1
        rw [hb] at this
        exact absurd this regOp_ne_range
    obtain ⟨hodd, ⟨b', hpc, hb'⟩, hw, -⟩ := P.rw _ _ _ hi
    rw [hb] at hb'
    obtain ⟨-, rfl⟩ := regOp_inj hb'
    have hpi : s.st.pc i = .regPut b := by
      rcases R.thr i with ⟨n', b', a1, a2, -⟩ | ⟨n', a1, -⟩ | ⟨a1, -⟩
      · rw [hi] at a1; cases a1; exact absurd a2 h3
      · omega
      · exact a1.trans hpc
    refine ⟨T ++ [.loc (.reg i b)], ⟨{ s.st with reg := b }.go i (.done .unit), s.wait⟩, fun hs => hs.loc (i := i) (inp := .go) ?_,
      ⟨R.wait, ?_, ?_, fun j => ?_, ?_, ?_⟩⟩
    · simp [Client.loc, R.wait, hw, hpi, PC.mapOp, PC.isIter, step]
    · conv => lhs; rw [hse]
      simp [State.go]
    · rw [heq, hb]
      cases b <;> simp [regOp, RWMap.apply, RWMap.AMap.set, State.go]
    · by_cases hj : j = i
      · subst hj
        exact .inl ⟨n, b, hi, by simp, hpc, by simp [State.go]⟩
      · simp only [State.go, Function.update_of_ne hj]
        refine (R.thr j).other rfl rfl rfl (fun m hm => ?_) fun _ _ _ => by simp
        have : m ≠ n := fun h => hj (P.rwU c j i n (h ▸ hm) hi)
        simp [this]
    · rw [List.filterMap_append]
      exact (List.append_nil _).trans R.maps
    · have := R.logs
      simp only [log] at this ⊢
      rw [← this]
      simp [List.filterMap_append, List.filter_append, Item.loc?, Ev.visible, keep]
  · refine ⟨T, s, id, R.other rfl ?_ rfl fun i hi => hi.other rfl rfl rfl (fun m hm' => ?_) fun _ _ _ => by simp⟩
    · rw [heq]
      refine RWMap.apply_other ?_ _
      cases hM : (rprog n).isMap with
      | false => cases ho : rprog n <;> rw [ho] at hM <;> first | rfl | cases hM
      | true =>
        obtain ⟨h1, -, -⟩ := h hM
        rcases P.ops n ((mem_L hL (e := .inv n)).2 h1) with h | ⟨c', b, hb⟩
        · rw [h] at hM; cases hM
        · rw [hb, regOp_writes, decide_eq_false_iff_not]
          rintro rfl
          exact hm ⟨b, hb⟩
    · have : m ≠ n := by
        rintro rfl
        obtain ⟨-, ⟨b, -, hb⟩, -⟩ := P.rw _ _ _ hm'
        exact hm ⟨b, hb⟩
      simp [this]

/-- Call `n` of `caches.Range` finds cache `c` in `caches`. -/
theorem Rel.mark (P : PInv rprog G w) (R : Rel rprog c G L Mk w T s) (hL : L.filterMap LEv.ev? = regs G)
    (h1 : .inv n ∈ L) (h2 : ∀ r, .ret n r ∉ L) (h3 : .visit n c () ∉ L) (h4 : effects uEq rprog L AMap.empty c = some ()) (h5 : rprog n = .range) (h6 : ¬ Mk n) :
    ∃ T' s', (Sys (cfg c) (prog c) T s (w.mp c) → Sys (cfg c) (prog c) T' s' (w.mp c)) ∧ Rel rprog c G L (fun m => Mk m ∨ m = n) w T' s' := by
  have hse : s = ⟨{ (w.cl c).st with pc := s.st.pc, reg := s.st.reg }, (w.cl c).wait⟩ := by
    rw [← R.wait, ← R.st]
  obtain ⟨t, ht⟩ : ∃ t, (w.tpc t).call? = some n := by
    rcases P.opn n ((mem_L hL (e := .inv n)).2 h1) with ⟨r, hr⟩ | ⟨c', i, hi⟩ | h
    · exact absurd ((mem_L hL).1 hr) (h2 r)
    · obtain ⟨-, ⟨b', -, hb'⟩, -⟩ := P.rw _ _ _ hi
      rw [h5] at hb'
      exact absurd hb'.symm regOp_ne_range
    · exact h
  have h2t : 2 * t / 2 = t := by omega
  have hcur : ∀ n, w.tpc t ≠ .round n (some c) := fun n' h => by
    rw [h] at ht
    cases ht
    exact h3 ((mem_L hL).1 (P.cur _ _ _ h))
  obtain ⟨hi, hw⟩ := P.idle t c hcur
  have hpi : s.st.pc (2 * t) = .idle := by
    rcases R.thr (2 * t) with ⟨n', b', a1, a2, -⟩ | ⟨n', a1, a2, a3, -⟩ | ⟨a1, -⟩
    · have := (P.rw _ _ _ a1).1; omega
    · rw [h2t, ht] at a2; cases a2; exact absurd a3 h6
    · exact a1.trans hi
  have hreg : s.st.reg = true := by rw [R.reg, h4]; rfl
  refine ⟨T ++ [.loc (.call (2 * t) .tick)] ++ [.loc (.tau (2 * t))], ⟨(s.st.go (2 * t) .tkReg).go (2 * t) .trNow, s.wait⟩, fun hs =>
    (hs.loc (i := 2 * t) (inp := .call .tick) (s' := ⟨s.st.go (2 * t) .tkReg, s.wait⟩) ?_).loc (i := 2 * t) (inp := .go) ?_,
      ⟨R.wait, ?_, R.reg, fun j => ?_, ?_, ?_⟩⟩
  · simp [Client.loc, R.wait, hw, hpi, PC.mapOp, PC.isIter, step, enter]
  · simp [Client.loc, R.wait, hw, PC.mapOp, PC.isIter, step, State.go, hreg]
  · conv => lhs; rw [hse]
    simp [State.go]
  · by_cases hj : j = 2 * t
    · subst hj
      exact .inr (.inl ⟨n, by omega, by rw [h2t]; exact ht, .inr rfl, h3, hi, by simp [State.go]⟩)
    · have : ((s.st.go (2 * t) .tkReg).go (2 * t) .trNow).pc j = s.st.pc j := by simp [State.go, hj]
      rw [this]
      rcases R.thr j with h | ⟨n', a1, a2, a3, a4⟩ | ⟨a1, a2, a3⟩
      · exact .inl h
      · exact .inr (.inl ⟨n', a1, a2, .inl a3, a4⟩)
      · refine .inr (.inr ⟨a1, a2, fun he n' hn' hm => ?_⟩)
        rcases hm with hm | rfl
        · exact a3 he n' hn' hm
        · have := P.tpU _ _ _ hn' ht
          omega
  · rw [List.filterMap_append, List.filterMap_append, List.append_assoc]
    exact (List.append_nil _).trans R.maps
  · have := R.logs
    simp only [log] at this ⊢
    rw [← this]
    simp [List.filterMap_append, List.filter_append, Item.loc?, Ev.visible, keep]

/-- `n` will find cache `c`, and does so after the first `k` events. -/
structure Good (rprog : Nat → RWMap.Op Nat Unit) (c : Nat) (L : List (LEv Nat Unit)) (n : Nat) : Prop where
  inv : .inv n ∈ L
  ret : ∀ r, .ret n r ∉ L
  vis : .visit n c () ∉ L
  get : effects uEq rprog L AMap.empty c = some ()
  isMap : (rprog n).isMap = false

theorem Rel.marks (P : PInv rprog G w) (hL : L.filterMap LEv.ev? = regs G) (N : List Nat) (hN : ∀ n ∈ N, Good rprog c L n) :
    ∀ {T : List (Item K V)} {s : Client K V}, Sys (cfg c) (prog c) T s (w.mp c) → Rel rprog c G L Mk w T s →
    ∃ T' s', Sys (cfg c) (prog c) T' s' (w.mp c) ∧ Rel rprog c G L (fun m => Mk m ∨ m ∈ N) w T' s' := by
  induction N with
  | nil =>
    intro T s hs R
    have : (fun m => Mk m ∨ m ∈ ([] : List Nat)) = Mk := by funext m; simp
    exact ⟨T, s, hs, by rw [this]; exact R⟩
  | cons n N ih =>
    intro T s hs R
    obtain ⟨T1, s1, hs1, R1⟩ := ih (fun m hm => hN m (.tail _ hm)) hs R
    by_cases hn : Mk n ∨ n ∈ N
    · have : (fun m => Mk m ∨ m ∈ n :: N) = fun m => Mk m ∨ m ∈ N := by
        funext m
        rw [List.mem_cons]
        refine propext ⟨?_, ?_⟩
        · rintro (h | rfl | h)
          · exact .inl h
          · exact hn
          · exact .inr h
        · rintro (h | h)
          · exact .inl h
          · exact .inr (.inr h)
      exact ⟨T1, s1, hs1, this ▸ R1⟩
    · obtain ⟨g1, g2, g3, g4, g5⟩ := hN n (.head _)
      have hr : rprog n = .range := by
        rcases P.ops n ((mem_L hL (e := .inv n)).2 g1) with h | ⟨c', b, hb⟩
        · exact h
        · rw [hb, regOp_isMap] at g5; cases g5
      obtain ⟨T2, s2, hs2, R2⟩ := R1.mark (cfg := cfg) (prog := prog) P hL g1 g2 g3 g4 hr hn
      have : (fun m => Mk m ∨ m ∈ n :: N) = fun m => (Mk m ∨ m ∈ N) ∨ m = n := by
        funext m
        rw [List.mem_cons]
        refine propext ⟨?_, ?_⟩
        · rintro (h | h | h)
          · exact .inl (.inl h)
          · exact .inr h
          · exact .inl (.inr h)
        · rintro ((h | h) | h)
          · exact .inl h
          · exact .inr (.inr h)
          · exact .inr (.inl h)
      exact ⟨T2, s2, hs2 hs1, this ▸ R2⟩

omit [DecidableEq K] in
theorem ls_append (X Y : List (XEv K V)) : ls (X ++ Y) = ls X ++ ls Y := List.filterMap_append
omit [DecidableEq K] in
theorem gs_append (X Y : List (XEv K V)) : gs (X ++ Y) = gs X ++ gs Y := List.filterMap_append

omit [DecidableEq K] in
theorem ls_mem {X : List (XEv K V)} {k k' : Nat} {x : LEv Nat Unit} (h : k ≤ k') (hx : x ∈ ls (X.take k)) : x ∈ ls (X.take k') := by
  have : X.take k' = X.take k ++ (X.take k').drop k := by
    rw [show X.take k = (X.take k').take k by rw [List.take_take, Nat.min_eq_left h]]
    exact (List.take_append_drop _ _).symm
  rw [this, ls_append]
  exact List.mem_append_left _ hx

omit [DecidableEq K] in
theorem ls_split {X : List (XEv K V)} {k : Nat} {x : XEv K V} (h : X[k]? = some x) : X.take (k + 1) = X.take k ++ [x] ∧ X = X.take k ++ x :: X.drop (k + 1) := by
  obtain ⟨hk, rfl⟩ := List.getElem?_eq_some_iff.1 h
  exact ⟨(List.take_concat_get' X k hk).symm, by rw [List.cons_getElem_drop_succ, List.take_append_drop]⟩

omit [DecidableEq K] in
/-- When call `n` finds cache `c`. -/
theorem good_at {X : List (XEv K V)} (W : RWMap.Whole uEq rprog (ls X)) (hv : .visit n c () ∈ ls X) : ∃ k, Good rprog c (ls (X.take k)) n := by
  obtain ⟨L1, L2, hL, hn⟩ := List.eq_append_cons_of_mem hv
  obtain ⟨M1, M2, rfl, h1, h2⟩ := W.vis n c () L1 L2 hL
  rw [List.append_assoc] at hL
  obtain ⟨Z1, Z2, rfl, hZ, -⟩ := List.filterMap_eq_append_iff.1 hL
  have hZ : ls Z1 = M1 := hZ
  refine ⟨Z1.length, ?_⟩
  rw [List.take_left, hZ]
  refine ⟨h1, fun r hr => ?_, fun h => hn (List.mem_append_left _ h), h2, ?_⟩
  · obtain ⟨A, B, rfl⟩ := List.append_of_mem hr
    have := (W.last A n r (B ++ (M2 ++ .visit n c () :: L2)) (by rw [hL]; simp)).2 c ()
    exact this (by simp)
  · by_contra hm
    have hm : (rprog n).isMap = true := by simpa using hm
    have hs := (W.lin.2 n hm).1
    have : .visit n c () ∈ (ls (Z1 ++ Z2)).filter (·.call == n) := List.mem_filter.2 ⟨hv, by simp [LEv.call]⟩
    rcases hs with h | h | h | ⟨r, h⟩ <;> rw [h] at this <;> simp at this

theorem proc_sim {X : List (XEv K V)} (W : RWMap.Whole uEq rprog (ls X)) (c : Nat) {pos : Nat → Nat}
    (hpos : ∀ n, .visit n c () ∈ ls X → Good rprog c (ls (X.take (pos n))) n) (k : Nat) (hk : k ≤ X.length) :
    ∀ {w : Process K V}, PExec cfg prog rprog (gs (X.take k)) w →
    ∃ T s, Sys (cfg c) (prog c) T s (w.mp c) ∧ Rel rprog c (gs (X.take k)) (ls (X.take k)) (fun n => .visit n c () ∈ ls X ∧ pos n < k) w T s := by
  induction k with
  | zero =>
    intro w hw
    cases hw
    exact ⟨[], .init, .init, ⟨rfl, rfl, rfl, fun i => .inr (.inr ⟨rfl, (fun n h => by cases h), fun _ n h => by cases h⟩), rfl, rfl⟩⟩
  | succ k ih =>
    intro w hw
    obtain ⟨x, hx⟩ : ∃ x, X[k]? = some x := ⟨X[k], List.getElem?_eq_getElem hk⟩
    obtain ⟨e1, e2⟩ := ls_split hx
    have hls : ls X = ls (X.take k) ++ (x.lev?.toList ++ ls (X.drop (k + 1))) := by
      conv => lhs; rw [e2]
      rw [ls_append]
      congr 1
      show List.filterMap _ _ = _
      cases h : x.lev? <;> simp [h, ls]
    rw [e1, gs_append] at hw
    obtain ⟨w0, hw0, hw1⟩ := Path.split hw
    obtain ⟨T, s, hs, R⟩ := ih (by omega) hw0
    have P := PExec.inv hw0
    have hL := ls_ev (X.take k)
    -- the looks that are due
    obtain ⟨N, hN⟩ : ∃ N : List Nat, ∀ n, n ∈ N ↔ .visit n c () ∈ ls X ∧ pos n = k := by
      classical
      refine ⟨((ls X).map LEv.call).filter fun n => decide (.visit n c () ∈ ls X ∧ pos n = k), fun n => ?_⟩
      rw [List.mem_filter, decide_eq_true_eq]
      exact ⟨fun h => h.2, fun h => ⟨List.mem_map.2 ⟨_, h.1, rfl⟩, h⟩⟩
    obtain ⟨T1, s1, hs1, R1⟩ := R.marks (cfg := cfg) (prog := prog) P hL N (fun n hn => by
      obtain ⟨a, rfl⟩ := (hN n).1 hn
      exact hpos n a) hs
    have hMk : (fun m => (.visit m c () ∈ ls X ∧ pos m < k) ∨ m ∈ N) = fun m => .visit m c () ∈ ls X ∧ pos m < k + 1 := by
      funext m
      rw [hN, ← and_or_left]
      refine propext (and_congr_right fun _ => ?_)
      omega
    rw [hMk] at R1
    rw [e1, gs_append, ls_append]
    cases x with
    | eff n =>
      have hg : gs [XEv.eff (K := K) (V := V) n] = [] := rfl
      rw [hg] at hw1 ⊢
      cases hw1
      have hls : ls X = ls (X.take k) ++ .eff n :: ls (X.drop (k + 1)) := hls
      obtain ⟨T2, s2, hs2, R2⟩ := R1.eff (cfg := cfg) (prog := prog) (n := n) P hL fun hm => by
        obtain ⟨a1, a2, a3⟩ := RWMap.eff_once W.lin hm hls
        refine ⟨a1, fun r hr => ?_, a2⟩
        obtain ⟨A, B, hAB⟩ := List.append_of_mem hr
        have := (RWMap.ret_once W.lin hm (M := A) (r := r) (M' := B ++ .eff n :: ls (X.drop (k + 1))) (by rw [hls, hAB]; simp)).2.2 (.eff n) (by simp)
        exact this rfl
      refine ⟨T2, s2, hs2 hs1, ?_⟩
      rw [List.append_nil]
      exact R2
    | g g =>
      have hg : gs [XEv.g g] = [g] := rfl
      rw [hg] at hw1 ⊢
      cases hw1 with
      | cons hst hnil =>
      cases hnil
      have F : Facts rprog c (gs (X.take k)) (ls (X.take k)) (fun m => .visit m c () ∈ ls X ∧ pos m < k + 1) g := by
        refine ⟨hL, fun n hn => ls_mem (by omega) (hpos n hn.1).inv, ?_, ?_, ?_, ?_⟩
        · rintro n r rfl ⟨hv, -⟩
          have h : ls X = ls (X.take k) ++ .ret n r :: ls (X.drop (k + 1)) := hls
          have := (W.last _ n r _ h).2 c ()
          rw [h, List.mem_append, List.mem_cons] at hv
          rcases hv with hv | hv | hv
          · exact hv
          · cases hv
          · exact absurd hv this
        · rintro n rfl
          have h : ls X = ls (X.take k) ++ .visit n c () :: ls (X.drop (k + 1)) := hls
          have hv : .visit n c () ∈ ls X := by rw [h]; simp
          refine ⟨⟨hv, ?_⟩, ?_⟩
          · by_contra hlt
            refine (hpos n hv).vis (ls_mem (k := k + 1) (by omega) ?_)
            rw [e1, ls_append]
            exact List.mem_append_right _ (.head _)
          · intro hm
            have := W.nodup n
            rw [h] at this
            obtain ⟨A, B, hAB⟩ := List.append_of_mem hm
            rw [hAB] at this
            simp [RWMap.visitsOf, List.filterMap_append, LEv.ev?] at this
            exact (List.pairwise_cons.1 (List.pairwise_append.1 this).2.1).1 c (by simp) rfl
        · rintro n r rfl hm
          have h : ls X = ls (X.take k) ++ .ret n r :: ls (X.drop (k + 1)) := hls
          exact (RWMap.ret_once W.lin hm h).2.1
        · rintro n rfl
          have h : ls X = ls (X.take k) ++ .inv n :: ls (X.drop (k + 1)) := hls
          exact ⟨W.once _ _ _ h, fun hm he => RWMap.inv_once W.lin hm h _ he rfl⟩
      obtain ⟨T2, s2, hs2, R2⟩ := R1.move (cfg := cfg) (prog := prog) P F hst
      refine ⟨T2, s2, hs2 hs1, ?_⟩
      have : ls [XEv.g g] = (XEv.g g).lev?.toList := by
        show List.filterMap _ _ = _
        cases h : (XEv.g g).lev? <;> simp [h]
      rw [this]
      exact R2

/-- **C162**: what one cache of a process does, a cache by itself does (`Sys`): same calls of its map, same results, same entries, same times. Everything proved of
`Sys` holds for every cache of a process, whatever the other caches, the trimmer and `caches` do. -/
theorem C162_cache (h : PExec cfg prog rprog G w) (c : Nat) :
    ∃ T s, Sys (cfg c) (prog c) T s (w.mp c) ∧ T.filterMap Item.map? = (items c G).filterMap Item.map? ∧ (log T).filter keep = log (items c G) ∧
      s.st.ents = (w.cl c).st.ents := by
  obtain ⟨L, hL, W⟩ := RWMap.exec_whole (caches_exec h)
  obtain ⟨X, rfl, rfl⟩ := merge hL
  have : ∀ n, ∃ k, .visit n c () ∈ ls X → Good rprog c (ls (X.take k)) n := fun n => by
    by_cases hv : .visit n c () ∈ ls X
    · obtain ⟨k, hk⟩ := good_at W hv
      exact ⟨k, fun _ => hk⟩
    · exact ⟨0, fun h => absurd h hv⟩
  obtain ⟨pos, hpos⟩ := Classical.skolem.1 this
  obtain ⟨T, s, hs, R⟩ := proc_sim (cfg := cfg) (prog := prog) W c hpos X.length (Nat.le_refl _) (w := w) (by rw [List.take_length]; exact h)
  rw [List.take_length] at R
  exact ⟨T, s, hs, R.maps, R.logs, by rw [R.st]⟩

/-- **C162**, for the caches with a map in one step (`Model.lean`). -/
theorem C162_atomic (h : PExec cfg prog rprog G w) (c : Nat) {P : List (Ev K V) → Prop}
    (hP : ∀ tr hist as, Exec (cfg c) tr hist as → P ((tr.filter Ev.visible).filter keep)) : P (log (items c G)) := by
  obtain ⟨T, s, hs, -, h2, -⟩ := C162_cache h c
  rw [← h2]
  exact sync_whole_all hs (P := fun l => P (l.filter keep)) hP

end Verif.SyncCache.Proc
