import Verif.RWMap.Steps4
/-!
# Preservation of the invariant: `unexpungeLocked`, `dirtyLocked`, new entries
-/
namespace Verif.RWMap
variable {K V : Type} [DecidableEq K] [Inhabited V]
variable {eqv : V → V → Option Bool} {prog : Nat → Op K V}
variable {i : Nat} {s : State K V} {g : Ghost K V}

theorem cur_notAmended {h : Sh K} (ha : h.read.amended = false) (k : K) :
    cur h k = aget h.read.m k := by
  unfold cur
  split
  next h1 => exact h1.symm
  next h1 => rw [h1]; simp [ha]

/-- The core invariant while `i` holds the mutex. -/
theorem Inv.coreOf (I : Inv eqv prog s g) {c : PC K V} (hc : s.pc i = c) (hl : c.locked = true) :
    Core s.sh c.remaining g := by
  have := I.str.core
  rwa [I.str.rem_holder hc hl] at this

theorem adds_isMap {op : Op K V} (h : op.adds = true) : op.isMap = true := by
  cases op <;> first | rfl | cases h

theorem Inv.unexpStep (I : Inv eqv prog s g) {e : Nat} (hc : s.pc i = .unexp e) :
    Good eqv prog g ({ s with sh := (unexpStep (V := V) s.sh (prog i) e).1 }.goto i
      (unexpStep s.sh (prog i) e).2) [] := by
  have ho := I.ops i
  simp only [OpOk, hc] at ho
  obtain ⟨ha, k, hk, hr⟩ := ho
  have hcore := I.coreOf hc rfl
  have hm := adds_isMap ha
  have hrk := hcore.rkey k e hr
  -- what comes next
  have hnext : ∃ c', (∀ h : Sh K, h.ent e ≠ .exp → aget h.read.m k = some e → e < h.fresh →
      OpOk eqv prog ({ s with sh := h }.goto i c') g i) ∧
      (match prog i with
        | .swap _ _ => PC.swp e
        | .loadOrStore _ _ => PC.ent e .l
        | _ => .panic) = c' ∧ c'.locked = true ∧ c'.remaining = [] ∧
      (∀ e' p, g.orph e' = some p → ¬ c'.touches e') ∧
      evs prog s.sh g i c' = [.inv i] := by
    cases hop : prog i with
    | swap k1 v =>
      rw [hop] at hk; cases hk
      refine ⟨_, ?_, rfl, rfl, rfl, (fun e' p _ h => by cases h), rfl⟩
      intro h h1 h2 _
      simp only [OpOk, goto_pc_self, goto_sh]
      exact ⟨h1, k, v, hop, cur_read h2⟩
    | loadOrStore k1 v =>
      rw [hop] at hk; cases hk
      refine ⟨_, ?_, rfl, rfl, rfl, ?_, ?_⟩
      · intro h h1 h2 h3
        simp only [OpOk, goto_pc_self, goto_sh]
        exact ⟨k, { key := by rw [hop]; rfl, ekey := hrk.1, lt := h3
                    un := fun h => by cases h
                    loc := fun _ => ⟨cur_read h2, Or.inl ⟨v, hop, h1⟩⟩
                    lm := fun h => by cases h }⟩
      · intro e' p he h
        cases h
        rw [hrk.2.2.2] at he; cases he
      · simp [evs, PC.target, pend, hrk.2.2.2]
    | _ => rw [hop] at ha; cases ha
  obtain ⟨c', hok, hceq, hl', hrem', htch, hev'⟩ := hnext
  by_cases hx : s.sh.ent e = .exp
  · cases hd : s.sh.dirty with
    | none => exact absurd hx (hcore.nod hd k e hr)
    | some d =>
      have heq : Verif.RWMap.unexpStep s.sh (prog i) e =
          ({ s.sh.setEnt e .nil with dirty := some (aput d k e) }, c') := by
        unfold Verif.RWMap.unexpStep
        rw [if_pos hx, ← hceq]
        cases hop : prog i with
        | swap k1 v => rw [hop] at hk; cases hk; simp [hd]
        | loadOrStore k1 v => rw [hop] at hk; cases hk; simp [hd]
        | _ => rw [hop] at ha; cases ha
      rw [heq]
      have hcur : ∀ k', cur { s.sh.setEnt e .nil with dirty := some (aput d k e) } k' =
          cur s.sh k' := by
        intro k'
        unfold cur
        show (match aget s.sh.read.m k' with
          | some e => some e
          | none => if s.sh.read.amended then aget (aput d k e) k' else none) = _
        cases hk' : aget s.sh.read.m k' with
        | some e' => rfl
        | none =>
          have : k ≠ k' := fun h => by rw [h, hk'] at hr; cases hr
          simp only [aget_aput, if_neg this, hd, Option.getD_some]
      have hvl : ∀ e', vl prog { s.sh.setEnt e .nil with dirty := some (aput d k e) } e' =
          vl prog s.sh e' := by
        intro e'
        simp only [vl, Sh.setEnt]
        split
        next h => rw [h, hx]; rfl
        next => rfl
      refine I.quiet hc rfl hl' rfl hm rfl rfl ?_ ?_ hvl ?_ ?_ htch rfl hev'
      · rw [hrem']; exact hcore.unexp hd hr hx
      · intro k' e' h; rw [hcur]; exact h
      · funext k'
        simp only [curv, hcur]
        congr 1
        funext e'; exact hvl e'
      · exact hok _ (by simp [Sh.setEnt]) hr hrk.2.1
  · have heq : Verif.RWMap.unexpStep s.sh (prog i) e = (s.sh, c') := by
      unfold Verif.RWMap.unexpStep
      rw [if_neg hx, ← hceq]
      cases prog i <;> rfl
    rw [heq]
    refine I.quiet hc rfl hl' rfl hm rfl rfl ?_ (fun _ _ h => h) (fun _ => rfl) rfl
      (hok _ hx hr hrk.2.1) htch rfl hev'
    rw [hrem']; exact hcore

theorem Inv.copy0Step (I : Inv eqv prog s g) {rm : List (K × Nat)} (hc : s.pc i = .copy0 rm)
    {ord : List (K × Nat) → List (K × Nat)} (hord : ∀ l, (ord l).Perm l) {go : Bool}
    {s' : State K V} (hn : next eqv prog ord go s i = some s') : Good eqv prog g s' [] := by
  have ho := I.ops i
  simp only [OpOk, hc] at ho
  obtain ⟨k, ha, hk, h1, h2, h3⟩ := ho
  have hcore := I.coreOf hc rfl
  have hm := adds_isMap ha
  simp only [next, hc] at hn
  cases hd : s.sh.dirty with
  | some d =>
    simp only [hd, Option.isSome_some, if_true, Option.some.injEq] at hn
    subst hn
    refine I.quiet (h' := s.sh) hc rfl rfl rfl hm rfl rfl hcore (fun _ _ h => h) (fun _ => rfl) rfl
      ?_ (fun e p _ h => by cases h) rfl rfl
    simp only [OpOk, goto_pc_self, goto_sh]
    exact ⟨⟨k, ha, hk, h1, h2, h3⟩, by rw [hd]; simp⟩
  | none =>
    simp only [hd, Option.isSome_none, Bool.false_eq_true, if_false, Option.some.injEq] at hn
    subst hn
    have hcur : ∀ k', cur { s.sh with dirty := some [] } k' = cur s.sh k' := by
      intro k'
      rw [cur_notAmended h2, cur_notAmended (by exact h2)]
    refine I.quiet hc rfl rfl rfl hm rfl rfl ?_ ?_ (fun _ => rfl) ?_ ?_
      (fun e p _ h => by cases h) rfl rfl
    · exact hcore.copy0 hd (hord _)
    · intro k' e' h; rw [hcur]; exact h
    · funext k'
      simp only [curv, hcur]
      rfl
    · simp only [OpOk, goto_pc_self, goto_sh]
      refine ⟨⟨k, ha, hk, h1, h2, h3⟩, by simp, ?_, ?_⟩
      · exact ((hord _).map Prod.fst).nodup_iff.2 hcore.rwf
      · intro k' e' h
        exact aget_of_mem hcore.rwf ((hord _).subset h)

theorem Inv.copyStep (I : Inv eqv prog s g) {es rm : List (K × Nat)} (hc : s.pc i = .copy es rm)
    {ord : List (K × Nat) → List (K × Nat)} {go : Bool}
    {s' : State K V} (hn : next eqv prog ord go s i = some s') : Good eqv prog g s' [] := by
  have ho := I.ops i
  simp only [OpOk, hc] at ho
  obtain ⟨⟨k, ha, hk, h1, h2, h3⟩, hdn, hnd, hsub⟩ := ho
  have hcore := I.coreOf hc rfl
  have hm := adds_isMap ha
  have hadd : ∀ h' : Sh K, ∀ c', h'.read = s.sh.read →
      Adding prog ({ s with sh := h' }.goto i c') i rm := by
    intro h' c' hr
    exact ⟨k, ha, hk, by simp [hr, h1], by simp [hr, h2], by simp [hr, h3]⟩
  simp only [next, hc] at hn
  cases es with
  | nil =>
    simp only [Option.some.injEq] at hn
    subst hn
    refine I.quiet (h' := s.sh) hc rfl rfl rfl hm rfl rfl hcore (fun _ _ h => h) (fun _ => rfl) rfl
      ?_ (fun e p _ h => by cases h) rfl rfl
    simp only [OpOk, goto_pc_self, goto_sh]
    exact ⟨hadd s.sh _ rfl, hdn⟩
  | cons x es =>
    obtain ⟨k1, e⟩ := x
    have hr := hsub k1 e (by simp)
    obtain ⟨d, hd⟩ := Option.ne_none_iff_exists'.1 hdn
    have hne := (hcore.rem d hd k1 e hr (by simp [PC.remaining])).2
    simp only at hn
    cases hx : s.sh.ent e with
    | exp => exact absurd hx hne
    | nil =>
      simp only [hx, Option.some.injEq] at hn
      subst hn
      refine I.quiet (h' := s.sh) hc rfl rfl rfl hm rfl rfl hcore (fun _ _ h => h) (fun _ => rfl) rfl
        ?_ (fun e p _ h => by cases h) rfl rfl
      simp only [OpOk, goto_pc_self, goto_sh]
      exact ⟨hadd s.sh _ rfl, hdn, hnd, hsub, by simp⟩
    | val b =>
      simp only [hx, Option.some.injEq] at hn
      subst hn
      have hcur : ∀ k', cur (dirtyPut s.sh k1 e) k' = cur s.sh k' := by
        intro k'
        rw [cur_notAmended h2, cur_notAmended (by exact h2)]
        rfl
      refine I.quiet hc rfl rfl rfl hm rfl rfl ?_ ?_ (fun _ => rfl) ?_ ?_
        (fun e p _ h => by cases h) rfl rfl
      · exact hcore.copyPut hr hnd hne
      · intro k' e' h; rw [hcur]; exact h
      · funext k'
        simp only [curv, hcur]
        rfl
      · simp only [OpOk, goto_pc_self, goto_sh]
        refine ⟨hadd _ _ rfl, by simp [dirtyPut, hd], ?_, ?_⟩
        · simp only [List.map_cons, List.nodup_cons] at hnd
          exact hnd.2
        · intro k' e' h
          exact hsub k' e' (List.mem_cons_of_mem _ h)

theorem Inv.expungeStep (I : Inv eqv prog s g) {es rm : List (K × Nat)}
    (hc : s.pc i = .expunge es rm)
    {ord : List (K × Nat) → List (K × Nat)} {go : Bool}
    {s' : State K V} (hn : next eqv prog ord go s i = some s') : Good eqv prog g s' [] := by
  have ho := I.ops i
  simp only [OpOk, hc] at ho
  obtain ⟨⟨k, ha, hk, h1, h2, h3⟩, hdn, hnd, hsub, hne⟩ := ho
  have hcore := I.coreOf hc rfl
  have hm := adds_isMap ha
  have hadd : ∀ h' : Sh K, ∀ c', h'.read = s.sh.read →
      Adding prog ({ s with sh := h' }.goto i c') i rm := by
    intro h' c' hr
    exact ⟨k, ha, hk, by simp [hr, h1], by simp [hr, h2], by simp [hr, h3]⟩
  simp only [next, hc] at hn
  cases es with
  | nil => exact absurd rfl hne
  | cons x es =>
    obtain ⟨k1, e⟩ := x
    have hr := hsub k1 e (by simp)
    simp only at hn
    by_cases hx : s.sh.ent e = .nil
    · simp only [hx, if_true, Option.some.injEq] at hn
      subst hn
      have hvl : ∀ e', vl prog (s.sh.setEnt e .exp) e' = vl prog s.sh e' := by
        intro e'
        simp only [vl, Sh.setEnt]
        split
        next h => rw [h, hx]; rfl
        next => rfl
      refine I.quiet hc rfl rfl rfl hm rfl rfl ?_ ?_ hvl ?_ ?_
        (fun e p _ h => by cases h) rfl rfl
      · exact hcore.copyExp hdn hr hnd
      · intro k' e' h; rw [cur_congr rfl rfl]; exact h
      · funext k'
        simp only [curv, cur_congr (h := s.sh) (h' := s.sh.setEnt e .exp) rfl rfl]
        congr 1
        funext e'; exact hvl e'
      · simp only [OpOk, goto_pc_self, goto_sh]
        refine ⟨hadd _ _ rfl, hdn, ?_, ?_⟩
        · simp only [List.map_cons, List.nodup_cons] at hnd
          exact hnd.2
        · intro k' e' h
          exact hsub k' e' (List.mem_cons_of_mem _ h)
    · simp only [hx, if_false, Option.some.injEq] at hn
      subst hn
      refine I.quiet (h' := s.sh) hc rfl rfl rfl hm rfl rfl hcore (fun _ _ h => h) (fun _ => rfl) rfl
        ?_ (fun e p _ h => by cases h) rfl rfl
      simp only [OpOk, goto_pc_self, goto_sh]
      exact ⟨hadd s.sh _ rfl, hdn, hnd, hsub⟩

/-- A new entry. -/
theorem Inv.newEntry (I : Inv eqv prog s g) {h1 : Sh K} {c : PC K V} {k : K}
    {d : List (K × Nat)} (hc : s.pc i = c) (hl : c.locked = true) (ht : c.target = none)
    (hev : evs prog s.sh g i c = [.inv i])
    (ha : (prog i).adds = true) (hk : (prog i).key? = some k)
    (hcore : Core h1 [] g) (hcur : ∀ k, cur h1 k = cur s.sh k)
    (he : h1.ent = s.sh.ent) (hf : h1.fresh = s.sh.fresh) (hmu : h1.mu = s.sh.mu)
    (hd : h1.dirty = some d) (hdk : aget d k = none)
    (hr : aget h1.read.m k = none) (ham : h1.read.amended = true) :
    Good eqv prog g ({ s with sh := (putNew h1 i k (newRes (prog i))).1 }.goto i
      (putNew h1 i k (newRes (prog i))).2) [] := by
  have hm := adds_isMap ha
  have hmi := I.str.holder hc hl
  simp only [putNew, hd]
  have hcn := hcore.putNew (b := i) hd hr ham
  generalize hh' : ({ h1 with dirty := some (aput d k h1.fresh), fresh := h1.fresh + 1
                              ent := fun x => if x = h1.fresh then .val i else h1.ent x } : Sh K) = h'
    at hcn ⊢
  have hck : cur h1 k = none := by simp [cur, hr, ham, hd, hdk]
  have hcur' : ∀ k', cur h' k' = if k' = k then some h1.fresh else cur s.sh k' := by
    intro k'
    rw [← hcur k', ← hh']
    unfold cur
    simp only [Option.getD_some, hd, ham, if_true]
    by_cases hkk : k' = k
    · subst hkk; simp [hr, aget_aput]
    · simp only [aget_aput, if_neg (Ne.symm hkk), if_neg hkk]
  have hvl' : ∀ e, e < s.sh.fresh → vl prog h' e = vl prog s.sh e := by
    intro e hlt
    rw [← hh']
    simp only [vl, he]
    rw [if_neg (by omega)]
  have hcv : curv prog h' = (curv prog s.sh).set k (some (prog i).arg) := by
    funext k'
    simp only [curv, hcur', AMap.set]
    split
    next =>
      rw [← hh']
      simp [vl, deref]
    next hkk =>
      cases hcu : cur s.sh k' with
      | none => rfl
      | some e' =>
        simp only [Option.bind_some]
        exact hvl' e' (I.str.core.cur_key hcu).2.1
  have hlt : ∀ e p, g.orph e = some p → e < s.sh.fresh := by
    intro e p hep
    rcases Nat.lt_or_ge e s.sh.fresh with h | h
    · exact h
    · rw [(I.str.core.fr e h).2.1] at hep; cases hep
  have hap : apply eqv (prog i) (curv prog s.sh) =
      ((curv prog s.sh).set k (some (prog i).arg), newRes (prog i)) := by
    have hnone : curv prog s.sh k = none := by
      simp [curv, ← hcur k, hck]
    cases hop : prog i with
    | swap k1 v => rw [hop] at hk; cases hk; simp [apply, hnone, newRes, Op.arg]
    | loadOrStore k1 v => rw [hop] at hk; cases hk; simp [apply, hnone, newRes, Op.arg]
    | _ => rw [hop] at ha; cases ha
  refine ⟨_, I.plain (xs := [.lin i (newRes (prog i))])
    (key' := fun x => if x = h1.fresh then some k else g.key x) rfl rfl ?_ ?_ ?_
    (I.tgt hc ht) ?_ ?_ ?_
    (Or.inl (I.str.unlocked hmi)) ?_ ?_ ?_ ?_ ?_ ?_, ?_⟩
  · intro e hlt
    exact if_neg (by omega)
  · have : remaining ({ s with sh := h' }.goto i (.unl (.res (newRes (prog i))))) = [] := by
      have h5 : h'.mu = some i := by rw [← hh', ← hmi]; exact hmu
      simp [remaining, h5, PC.remaining]
    rw [this]
    exact hcn.ghost rfl rfl rfl rfl
  · refine mu_same I.str hc (by rw [hl]; rfl) ?_
    rw [← hh']; exact hmu
  · rw [← hh', ← hf]; exact Nat.le_succ _
  · intro k' e' h
    rw [hcur', if_neg, h]
    rintro rfl
    rw [← hcur k', hck] at h; cases h
  · intro e p hep
    exact hvl' e (hlt e p hep)
  · simp only [OpOk, goto_pc_self, NxOk]
    intro h; rw [h] at ha; cases ha
  · intro x hx
    simp only [List.mem_singleton] at hx
    subst hx
    exact Or.inl rfl
  · simp [Legal, okE, hap]
  · intro k'; simp only [run, app, hap, hcv]
  · intro e _ _ h; cases h
  · rw [opTL_map hm, I.map_evs hc hm, hev]
    simp [proj, TE.owner, evs]
  · simp [hist_append, hist, TE.ev?]

theorem Inv.amendStep (I : Inv eqv prog s g) {rm : List (K × Nat)} (hc : s.pc i = .amend rm)
    {ord : List (K × Nat) → List (K × Nat)} {go : Bool}
    {s' : State K V} (hn : next eqv prog ord go s i = some s') : Good eqv prog g s' [] := by
  have ho := I.ops i
  simp only [OpOk, hc] at ho
  obtain ⟨⟨k, ha, hk, h1, h2, h3⟩, hdn⟩ := ho
  have hcore := I.coreOf hc rfl
  simp only [next, hc, hk, Option.some.injEq] at hn
  subst hn
  obtain ⟨d, hd⟩ := Option.ne_none_iff_exists'.1 hdn
  have hdk : ∀ k', aget s.sh.read.m k' = none → aget d k' = none := by
    intro k' hk'
    cases hx : aget d k' with
    | none => rfl
    | some e => rw [hcore.sub h2 d hd k' e hx] at hk'; cases hk'
  refine I.newEntry (d := d) hc rfl rfl rfl ha hk ?_ ?_ rfl rfl rfl hd (hdk k h3) ?_ rfl
  · rw [h1]; exact hcore.amend hdn
  · intro k'
    rw [cur_notAmended h2]
    unfold cur
    rw [h1]
    simp only [hd, Option.getD_some, if_true]
    cases hx : aget s.sh.read.m k' with
    | some e => rfl
    | none => exact hdk k' hx
  · rw [h1]; exact h3
end Verif.RWMap
