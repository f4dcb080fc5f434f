import Verif.SyncCache.Refine
/-!
# Properties C93 and C94: the cache together with the steps of the map
-/
namespace Verif.SyncCache
open Verif.Refresh (get_snoc get_lt get_keep get_new)
variable {K V : Type} [DecidableEq K]

/-- What one can see of an execution of the whole. -/
abbrev log (T : List (Item K V)) : List (Ev K V) := (T.filterMap Item.loc?).filter Ev.visible

/-! ## C93 -/

/-- **C93**: whatever the cache over the steps of `RWMap` does, it does over an atomic map. -/
theorem sync_whole {c : Cfg V} {prog : Nat → RWMap.Op K Nat} {T : List (Item K V)} {s : Client K V} {m : RWMap.State K Nat} (h : Sys c prog T s m) :
    ∃ tr hist as, Exec c tr hist as ∧ tr.filter Ev.visible = log T ∧ as.ents = s.st.ents ∧ as.reg = s.st.reg := sys_refine h

/-- **C93**: what is true of all one can see over an atomic map, is true of all one can see over the steps of `RWMap`. -/
theorem sync_whole_all {c : Cfg V} {prog : Nat → RWMap.Op K Nat} {T : List (Item K V)} {s : Client K V} {m : RWMap.State K Nat} (h : Sys c prog T s m)
    {P : List (Ev K V) → Prop} (hP : ∀ tr hist as, Exec c tr hist as → P (tr.filter Ev.visible)) : P (log T) := by
  obtain ⟨tr, hist, as, h1, h2, _⟩ := sync_whole h
  rw [← h2]
  exact hP tr hist as h1

/-! ## Positions in what one can see -/

section
variable {B : List (Ev K V)} {e : Ev K V} {m n : Nat}

/-- Where an event at `m` is seen. -/
def rank (B : List (Ev K V)) (m : Nat) : Nat := ((B.take m).filter Ev.visible).length

theorem rank_mono (h : m ≤ n) : rank B m ≤ rank B n :=
  ((List.take_prefix_take_left (l := B) h).filter _).length_le

theorem rank_get (h : B[m]? = some e) (hv : e.visible = true) :
    (B.filter Ev.visible)[rank B m]? = some e ∧ (B.filter Ev.visible).take (rank B m) = (B.take m).filter Ev.visible := by
  have hB : B = B.take m ++ e :: B.drop (m + 1) := by
    obtain ⟨h1, h2⟩ := List.getElem?_eq_some_iff.1 h
    rw [← h2, List.getElem_cons_drop, List.take_append_drop]
  have : B.filter Ev.visible = (B.take m).filter Ev.visible ++ e :: (B.drop (m + 1)).filter Ev.visible := by
    conv => lhs; rw [hB]
    rw [List.filter_append, List.filter_cons_of_pos hv]
  unfold rank
  rw [this]
  constructor
  · simp
  · simp

theorem rank_lt (h : B[m]? = some e) (hv : e.visible = true) (hl : m < n) : rank B m < rank B n := by
  refine Nat.lt_of_lt_of_le ?_ (rank_mono (B := B) hl)
  unfold rank
  rw [take_next h, List.filter_append]
  simp [hv]

theorem of_rank (h : rank B m < rank B n) : m < n := by
  by_contra hc
  have := rank_mono (B := B) (Nat.le_of_not_lt hc)
  omega

theorem pos (h : (B.filter Ev.visible)[n]? = some e) : ∃ m, B[m]? = some e ∧ rank B m = n ∧ e.visible = true := by
  induction B using List.reverseRecOn with
  | nil => simp at h
  | append_singleton B x ih =>
    rw [List.filter_append] at h
    by_cases hn : n < (B.filter Ev.visible).length
    · rw [List.getElem?_append_left hn] at h
      obtain ⟨m, h1, h2, h3⟩ := ih h
      have := get_lt h1
      refine ⟨m, get_keep h1, ?_, h3⟩
      unfold rank
      rw [List.take_append_of_le_length (by omega)]
      exact h2
    · rw [List.getElem?_append_right (by omega)] at h
      cases hx : x.visible with
      | false => simp [hx] at h
      | true =>
        rw [List.filter_cons_of_pos hx] at h
        have := get_lt h
        simp at this
        have hn' : n - (B.filter Ev.visible).length = 0 := by omega
        rw [hn'] at h
        cases h
        refine ⟨B.length, get_new, ?_, hx⟩
        unfold rank
        rw [List.take_left]
        omega

theorem expOf_filter (B : List (Ev K V)) (a : Nat) : expOf (B.filter Ev.visible) a = expOf B a := by
  induction B using List.reverseRecOn with
  | nil => rfl
  | append_singleton B x ih =>
    rw [List.filter_append, expOf_snoc, ← ih]
    cases hx : x.visible with
    | true => rw [List.filter_cons_of_pos hx, List.filter_nil, expOf_snoc]
    | false =>
      rw [List.filter_cons_of_neg (by simp [hx]), List.filter_nil, List.append_nil]
      cases x <;> first | rfl | cases hx

theorem callAt_up {i p q : Nat} {op : Op K V} (h : CallAt (B.filter Ev.visible) i p op q) (hq : (B.filter Ev.visible)[q]? = some e) :
    ∃ p' q', rank B p' = p ∧ rank B q' = q ∧ B[q']? = some e ∧ CallAt B i p' op q' := by
  obtain ⟨p', a1, a2, a3⟩ := pos h.at_
  obtain ⟨q', b1, b2, b3⟩ := pos hq
  refine ⟨p', q', a2, b2, b1, of_rank (B := B) (by rw [a2, b2]; exact h.lt), a1, fun k op' hk hk' hc => ?_⟩
  refine h.only (rank B k) op' ?_ ?_ (rank_get hc rfl).1
  · rw [← a2]; exact rank_lt a1 rfl hk
  · rw [← b2]; exact rank_lt hc rfl hk'

theorem callAt_down {i p q : Nat} {op : Op K V} (h : CallAt B i p op q) : CallAt (B.filter Ev.visible) i (rank B p) op (rank B q) := by
  refine ⟨rank_lt h.at_ rfl h.lt, (rank_get h.at_ rfl).1, fun k op' hk hk' hc => ?_⟩
  obtain ⟨k', a1, a2, a3⟩ := pos hc
  rw [← a2] at hk hk'
  exact h.only k' op' (of_rank hk) (of_rank hk') a1

theorem made_down {a : Nat} {v : V} (h : Made (B.take m) a v) : Made ((B.filter Ev.visible).take (rank B m)) a v := by
  obtain ⟨n, i, now, d, hn⟩ := h
  obtain ⟨h1, h2⟩ := get_take.1 hn
  exact ⟨rank B n, i, now, d, get_take.2 ⟨rank_lt h2 rfl h1, (rank_get h2 rfl).1⟩⟩
end

/-! ## C94 -/

section
variable {tr : List (Ev K V)} {i p q : Nat} {a : Nat} {φ : Int → Int → Prop}

/-- Between `p` and `q` thread `i` reads the clock and then the expiration of `a`, and the two times satisfy `φ`. -/
def Read (tr : List (Ev K V)) (i p q a : Nat) (φ : Int → Int → Prop) : Prop :=
  ∃ (x y : Nat) (now : Int), p < x ∧ x < y ∧ y < q ∧ tr[x]? = some (.clock i now) ∧ tr[y]? = some (.seen i a) ∧ φ (ms now) (expOf (tr.take y) a)

/-- Entry `a` was made before `q` in a call of `Store` or `LoadOrStore` for `k`. -/
def StoredFor (tr : List (Ev K V)) (k : K) (a q : Nat) : Prop :=
  ∃ (n j p : Nat) (v : V) (now d : Int) (op : Op K V), n < q ∧ tr[n]? = some (.mk j a v now d) ∧ CallAt tr j p op n ∧
    (op = .store k v d ∨ op = .loadOrStore k v d)

theorem Checked.read {k : K} {op : Op K V} (hp : tr[p]? = some (.call i op)) (h : Checked (tr.take q) i p k a φ) :
    Read (tr.filter Ev.visible) i (rank tr p) (rank tr q) a φ := by
  obtain ⟨z, x, y, now, h1, h2, h3, h4, _, h5, h6, h7⟩ := h
  have h5' := (get_take.1 h5).2
  obtain ⟨h6', h6''⟩ := get_take.1 h6
  rw [List.take_take, Nat.min_eq_left (Nat.le_of_lt h6')] at h7
  refine ⟨rank tr x, rank tr y, now, rank_lt hp rfl h3, rank_lt h5' rfl h4, rank_lt h6'' rfl h6', (rank_get h5' rfl).1, (rank_get h6'' rfl).1, ?_⟩
  rw [(rank_get h6'' rfl).2, expOf_filter]; exact h7

theorem Checked.content {k : K} (h : Checked (tr.take q) i p k a φ) : ∃ z, p < z ∧ z ≤ q ∧ content (tr.take z) k = some a := by
  obtain ⟨z, x, y, now, h1, h2, h3, h4, h5, _, h6, _⟩ := h
  obtain ⟨h6', h6''⟩ := get_take.1 h6
  have hz : z ≤ q := by omega
  rw [List.take_take, Nat.min_eq_left hz] at h5
  exact ⟨z, h1, hz, h5⟩
end

section
variable {c : Cfg V} {tr : List (Ev K V)} {hist : List (Map K)} {s : State K V} {i j p q n r z : Nat} {k : K} {a : Nat} {op : Op K V} {v : V} {now d : Int}

/-- A thread in a call has not returned from it. -/
theorem Exec.active (h : Exec c tr hist s) : ∀ i, s.pc i ≠ .idle →
    ∃ p op, tr[p]? = some (.call i op) ∧ ∀ (n : Nat) (r : Res V), p < n → tr[n]? ≠ some (.ret i r) := by
  induction h with
  | nil => exact fun i h => absurd rfl h
  | @snoc tr hist s i inp s' e h1 h2 ih =>
    intro j hj
    have hst := step_Step h2
    by_cases hji : j = i
    · subst hji
      have old : s.pc j ≠ .idle → (∀ r, e ≠ .ret j r) → ∃ p op, (tr ++ [e])[p]? = some (.call j op) ∧
          ∀ (n : Nat) (r : Res V), p < n → (tr ++ [e])[n]? ≠ some (.ret j r) := by
        intro h3 h4
        obtain ⟨p, op, h5, h6⟩ := ih j h3
        refine ⟨p, op, get_keep h5, fun n r hn hc => ?_⟩
        rcases get_snoc.1 hc with hc' | ⟨_, h'⟩
        · exact h6 n r hn hc'
        · exact h4 r h'.symm
      cases hst
      case call op hpc =>
        refine ⟨tr.length, op, get_new, fun n r hn hc => ?_⟩
        have := get_lt hc; simp at this; omega
      case ret => rw [State.go_pc] at hj; exact absurd rfl hj
      all_goals exact old (by simp_all) nofun
    · rw [hst.other hji] at hj
      obtain ⟨p, op, h5, h6⟩ := ih j hj
      refine ⟨p, op, get_keep h5, fun n r hn hc => ?_⟩
      rcases get_snoc.1 hc with hc' | ⟨_, rfl⟩
      · exact h6 n r hn hc'
      · exact hji hst.tid

/-- The call that puts an entry. -/
theorem Exec.put_call (h : Exec c tr hist s) (hn : tr[n]? = some (.put i k a)) :
    ∃ (p m : Nat) (op : Op K V) (v : V) (now d : Int), p < m ∧ m < n ∧ tr[m]? = some (.mk i a v now d) ∧ CallAt tr i p op n ∧
      (op = .store k v d ∨ op = .loadOrStore k v d) ∧ ∀ (x : Nat) (r : Res V), m < x → x < n → tr[x]? ≠ some (.ret i r) := by
  obtain ⟨s0, inp, s1, h1, h2, -⟩ := h.at hn
  have h3 : Step c _ s0 i s1 _ := step_Step h2
  generalize he : (Ev.put i k a : Ev K V) = e at h3
  have key : ∀ {p : Nat} {op : Op K V} {v : V} {d : Int}, s0.pc i ≠ .idle → Cur (tr.take n) i p op → Mine (tr.take n) i p a v d →
      (op = .store k v d ∨ op = .loadOrStore k v d) →
      ∃ (p m : Nat) (op : Op K V) (v : V) (now d : Int), p < m ∧ m < n ∧ tr[m]? = some (.mk i a v now d) ∧ CallAt tr i p op n ∧
        (op = .store k v d ∨ op = .loadOrStore k v d) ∧ ∀ (x : Nat) (r : Res V), m < x → x < n → tr[x]? ≠ some (.ret i r) := by
    rintro p op v d hne ⟨c1, c2⟩ ⟨m, now, b1, b2, b3⟩ hop
    have b2' := get_take.1 b2
    have c1' := get_take.1 c1
    refine ⟨p, m, op, v, now, d, b1, b2'.1, b2'.2, ⟨c1'.1, c1'.2, fun x op' hx hx' hc => c2 x op' hx (get_take.2 ⟨hx', hc⟩)⟩, hop, ?_⟩
    intro x r hx hx' hc
    obtain ⟨p', op', d1, d2⟩ := h1.active i hne
    have : p' ≤ p := by
      by_contra hc'
      exact c2 p' op' (by omega) d1
    exact d2 x r (by omega) (get_take.2 ⟨hx', hc⟩)
  cases h3 <;> cases he
  case stPut hpc =>
    have hne : s0.pc i ≠ .idle := by rw [hpc]; nofun
    obtain ⟨p, op, h4, h5⟩ := h1.know i hne
    rw [hpc] at h5
    obtain ⟨v, d, h5, h6⟩ := h5
    exact key hne h4 h6 (.inl h5)
  case losPut v d _ hpc =>
    have hne : s0.pc i ≠ .idle := by rw [hpc]; nofun
    obtain ⟨p, op, h4, h5⟩ := h1.know i hne
    rw [hpc] at h5
    exact key hne h4 h5.2 (.inr h5.1)

/-- An entry in the map was stored for its key. -/
theorem Exec.storedFor (h : Exec c tr hist s) (hz : content (tr.take z) k = some a) (hq : z ≤ q) :
    StoredFor (tr.filter Ev.visible) k a (rank tr q) := by
  obtain ⟨x, i, h1, _⟩ := content_src hz
  obtain ⟨h2, h3⟩ := get_take.1 h1
  obtain ⟨p, m, op, v, now, d, b1, b2, b3, b4, b5, _⟩ := h.put_call h3
  have b4' : CallAt tr i p op m := ⟨b1, b4.at_, fun k op' hk hk' => b4.only k op' hk (by omega)⟩
  exact ⟨rank tr m, i, rank tr p, v, now, d, op, rank_lt b3 rfl (by omega), (rank_get b3 rfl).1, callAt_down b4', b5⟩

/-- An entry in the map has not been replaced or deleted by a call in between. -/
theorem Exec.newest (h : Exec c tr hist s) (hz : content (tr.take z) k = some a) {v : V} {now d : Int} (hn : tr[n]? = some (.mk j a v now d))
    {x : Res V} (hr : tr[r]? = some (.ret j x)) (hnr : n < r) {op : Op K V} (hop : op = .delete k ∨ ∃ v d, op = .store k v d)
    (hc : CallAt tr i p op q) (hq : tr[q]? = some (.ret i .unit)) (hrp : r < p) (hqz : q < z) : False := by
  obtain ⟨y, j', h1, hno⟩ := content_src hz
  obtain ⟨h2, h3⟩ := get_take.1 h1
  obtain ⟨p', m, op', v', now', d', b1, b2, b3, b4, b5, b6⟩ := h.put_call h3
  have hm := h.glob.once _ _ _ _ _ _ _ _ _ _ _ hn b3
  subst hm
  rw [hn] at b3
  injection b3 with b3
  injection b3 with hj
  subst hj
  have hy : y < r := by
    have : y ≠ r := by rintro rfl; rw [hr] at h3; cases h3
    by_contra hc'
    exact b6 r x hnr (by omega) hr
  rcases hop with rfl | ⟨v1, d1, rfl⟩
  · obtain ⟨z', e1, e2, e3⟩ := sync_delete h hc hq
    have : content (tr.take z') k = some a := by
      refine content_keep h3 (by omega) fun m e hm hm' hc => hno m e hm (get_take.2 ⟨by omega, hc⟩)
    rw [e3] at this
    cases this
  · obtain ⟨a1, m1, n1, now1, e1, e2, e3, e4, e5⟩ := sync_store h hc hq
    exact hno n1 _ (by omega) (get_take.2 ⟨by omega, e5⟩) rfl

/-- The callbacks go to different entries. -/
theorem Exec.cb_entries (h : Exec c tr hist s) : ∃ f : Nat → Nat, ∀ (m i : Nat) (v : V), tr[m]? = some (.cb i v) →
    Made (tr.take m) (f m) v ∧ ∀ (m' i' : Nat) (v' : V), tr[m']? = some (.cb i' v') → f m = f m' → m = m' := by
  have : ∀ m, ∃ a, ∀ i v, tr[m]? = some (.cb i v) → ∃ n k, n < m ∧ tr[n]? = some (.del i k a) ∧ Made tr a v ∧ NoDel tr i n m := by
    intro m
    by_cases hm : ∃ i v, tr[m]? = some (.cb i v)
    · obtain ⟨i, v, hm⟩ := hm
      obtain ⟨_, n, ⟨i', k, a, v', h1, h2, h3, h4, h5⟩, _⟩ := sync_cb_only h hm
      rw [hm] at h3
      cases h3
      refine ⟨a, fun i' v' hm' => ?_⟩
      rw [hm] at hm'
      cases hm'
      exact ⟨n, k, h1, h2, h4, h5⟩
    · exact ⟨0, fun i v h => absurd ⟨i, v, h⟩ hm⟩
  choose f hf using this
  refine ⟨f, fun m i v hm => ⟨?_, fun m' i' v' hm' hff => ?_⟩⟩
  · obtain ⟨n, k, h1, h2, ⟨n0, i0, now0, d0, h3⟩, _⟩ := hf m i v hm
    obtain ⟨y, j, h4, _⟩ := content_src (h.del_at h2)
    obtain ⟨h5, h6⟩ := get_take.1 h4
    obtain ⟨m1, v1, now1, d1, h7, h8, _⟩ := h.put_src h6
    have := h.glob.once _ _ _ _ _ _ _ _ _ _ _ h3 h8
    subst this
    exact ⟨n0, i0, now0, d0, get_take.2 ⟨by omega, h3⟩⟩
  · obtain ⟨n, k, h1, h2, _, h4⟩ := hf m i v hm
    obtain ⟨n', k', h1', h2', _, h4'⟩ := hf m' i' v' hm'
    rw [← hff] at h2'
    have := h.del_once h2 h2'
    subst this
    rw [h2] at h2'
    cases h2'
    rcases Nat.lt_trichotomy m m' with h5 | h5 | h5
    · exact absurd trivial (h4' m _ h1 h5 hm rfl)
    · exact h5
    · exact absurd trivial (h4 m' _ h1' h5 hm' rfl)
end

section
variable {c : Cfg V} {prog : Nat → RWMap.Op K Nat} {T : List (Item K V)} {s : Client K V} {m : RWMap.State K Nat}
variable {i j p q n r : Nat} {k : K} {a : Nat} {b : Bool} {op : Op K V} {v : V} {now d : Int}

/-- **C94**: over the steps of `RWMap`, `Load` and `LoadAndDelete` return an entry that was stored for the key and that the call has found not expired. -/
theorem whole_load (h : Sys c prog T s m) (hop : op = .load k ∨ op = .loadAndDelete k) (hc : CallAt (log T) i p op q)
    (hq : (log T)[q]? = some (.ret i (.entry a b))) :
    b = true ∧ Read (log T) i p q a (fun now e => now ≤ e) ∧ StoredFor (log T) k a q := by
  obtain ⟨tr, hist, as, hx, hl, _⟩ := sync_whole h
  rw [← hl] at hc hq ⊢
  obtain ⟨p', q', rfl, rfl, hq', hc'⟩ := callAt_up hc hq
  have key : b = true ∧ Live (tr.take q') i p' k a := by
    rcases hop with rfl | rfl
    · exact sync_load_live hx hc' hq'
    · rcases sync_lad hx hc' hq' nofun with ⟨a', n, e1, _, _, _, e5⟩ | ⟨e1, _⟩
      · cases e1; exact ⟨rfl, e5⟩
      · cases e1
  obtain ⟨z, _, hz, hct⟩ := key.2.content
  exact ⟨key.1, key.2.read hc'.at_, hx.storedFor hct hz⟩

/-- **C94**: so are the entries passed to the function of `Range`. -/
theorem whole_range (h : Sys c prog T s m) (hc : CallAt (log T) i p op q) (hq : (log T)[q]? = some (.yield i k a)) :
    op = .range ∧ Read (log T) i p q a (fun now e => now ≤ e) ∧ StoredFor (log T) k a q := by
  obtain ⟨tr, hist, as, hx, hl, _⟩ := sync_whole h
  rw [← hl] at hc hq ⊢
  obtain ⟨p', q', rfl, rfl, hq', hc'⟩ := callAt_up hc hq
  obtain ⟨h1, h2⟩ := sync_range_live hx hc' hq'
  obtain ⟨z, _, hz, hct⟩ := h2.content
  exact ⟨h1, h2.read hc'.at_, hx.storedFor hct hz⟩

/-- **C94**: no stale reads: once a later `Store` or `Delete` of the key is over, `Load`, `LoadAndDelete` and `Range` do not give the entry any more. -/
theorem whole_newest (h : Sys c prog T s m) (hn : (log T)[n]? = some (.mk j a v now d)) {x : Res V} (hr : (log T)[r]? = some (.ret j x)) (hnr : n < r)
    {i' p' q' : Nat} {op' : Op K V} (hop' : op' = .delete k ∨ ∃ v d, op' = .store k v d) (hc' : CallAt (log T) i' p' op' q')
    (hq' : (log T)[q']? = some (.ret i' .unit)) (hrp : r < p') (hqp : q' < p) (hc : CallAt (log T) i p op q) :
    (op = .load k ∨ op = .loadAndDelete k → (log T)[q]? ≠ some (.ret i (.entry a b))) ∧ (log T)[q]? ≠ some (.yield i k a) := by
  obtain ⟨tr, hist, as, hx, hl, _⟩ := sync_whole h
  rw [← hl] at hc hc' hq' hr hn ⊢
  obtain ⟨n, n1, rfl, _⟩ := pos hn
  obtain ⟨r, r1, rfl, _⟩ := pos hr
  obtain ⟨p', q', rfl, rfl, hq2, hc2⟩ := callAt_up hc' hq'
  have hnr' := of_rank hnr
  have hrp' := of_rank hrp
  constructor
  · intro hop hq
    obtain ⟨p, q, rfl, rfl, hq3, hc3⟩ := callAt_up hc hq
    have hqp' := of_rank hqp
    have key : Live (tr.take q) i p k a := by
      rcases hop with rfl | rfl
      · exact (sync_load_live hx hc3 hq3).2
      · rcases sync_lad hx hc3 hq3 nofun with ⟨a', n, e1, _, _, _, e5⟩ | ⟨e1, _⟩
        · cases e1; exact e5
        · cases e1
    obtain ⟨z, hz, _, hct⟩ := key.content
    exact hx.newest hct n1 r1 hnr' hop' hc2 hq2 hrp' (by omega)
  · intro hq
    obtain ⟨p, q, rfl, rfl, hq3, hc3⟩ := callAt_up hc hq
    have hqp' := of_rank hqp
    obtain ⟨z, hz, _, hct⟩ := (sync_range_live hx hc3 hq3).2.content
    exact hx.newest hct n1 r1 hnr' hop' hc2 hq2 hrp' (by omega)

/-- **C94**: no two calls of `LoadAndDelete` return the same entry. -/
theorem whole_lad_once (h : Sys c prog T s m) {p' q' : Nat} {k' : K} (hc : CallAt (log T) i p (.loadAndDelete k) q)
    (hq : (log T)[q]? = some (.ret i (.entry a true))) (hc' : CallAt (log T) j p' (.loadAndDelete k') q')
    (hq' : (log T)[q']? = some (.ret j (.entry a true))) : p = p' := by
  obtain ⟨tr, hist, as, hx, hl, _⟩ := sync_whole h
  rw [← hl] at hc hq hc' hq'
  obtain ⟨p, q, rfl, rfl, h1, h2⟩ := callAt_up hc hq
  obtain ⟨p', q', rfl, rfl, h1', h2'⟩ := callAt_up hc' hq'
  rw [sync_lad_once hx h2 h1 h2' h1']

/-- **C94**: callbacks are made only if there is one, with values of entries made before, and for no entry twice. -/
theorem whole_cb (h : Sys c prog T s m) : ∃ f : Nat → Nat, ∀ (n i : Nat) (v : V), (log T)[n]? = some (.cb i v) →
    c.hasCb = true ∧ Made ((log T).take n) (f n) v ∧ ∀ (n' i' : Nat) (v' : V), (log T)[n']? = some (.cb i' v') → f n = f n' → n = n' := by
  obtain ⟨tr, hist, as, hx, hl, _⟩ := sync_whole h
  rw [← hl]
  obtain ⟨f, hf⟩ := hx.cb_entries
  have : ∀ n, ∃ n', ∀ i v, (tr.filter Ev.visible)[n]? = some (.cb i v) → tr[n']? = some (.cb i v) ∧ rank tr n' = n := by
    intro n
    by_cases hn : ∃ e, (tr.filter Ev.visible)[n]? = some e
    · obtain ⟨e, hn⟩ := hn
      obtain ⟨n', h1, h2, _⟩ := pos hn
      refine ⟨n', fun i v h => ?_⟩
      rw [hn] at h
      cases h
      exact ⟨h1, h2⟩
    · exact ⟨0, fun i v h => absurd ⟨_, h⟩ hn⟩
  choose g hg using this
  refine ⟨fun n => f (g n), fun n i v hn => ?_⟩
  obtain ⟨h1, h2⟩ := hg n i v hn
  obtain ⟨h3, h4⟩ := hf _ i v h1
  refine ⟨(sync_cb_only hx h1).1, ?_, fun n' i' v' hn' hff => ?_⟩
  · have := made_down h3
    rwa [h2] at this
  · obtain ⟨h1', h2'⟩ := hg n' i' v' hn'
    rw [← h2, ← h2', h4 _ i' v' h1' hff]

/-- **C94**: a call panics only if a function of the user panicked in it, or the values could not be compared, or it is a method of something not an entry. -/
theorem whole_panic (h : Sys c prog T s m) (hc : CallAt (log T) i p op q) (hq : (log T)[q]? = some (.ret i .panicked)) :
    (∃ n, p < n ∧ n < q ∧ ((log T)[n]? = some (.cbEnd i false) ∨ (log T)[n]? = some (.yieldEnd i none))) ∨
    (∃ k v a w, op = .compareValueAndDelete k v ∧ Made (log T) a w ∧ c.eqv v w = none) ∨
    ∃ a, (op = .value a ∨ op = .isExpired a ∨ (∃ d, op = .addExpiration a d) ∨ ∃ t, op = .setExpiration a t) ∧ ∀ v, ¬ Made ((log T).take p) a v := by
  obtain ⟨tr, hist, as, hx, hl, _⟩ := sync_whole h
  rw [← hl] at hc hq ⊢
  obtain ⟨p, q, rfl, rfl, h1, h2⟩ := callAt_up hc hq
  rcases sync_panic hx h2 h1 with ⟨n, e1, e2, e3⟩ | ⟨k, v, a, w, e1, ⟨n, i', now, d, e2⟩, e3⟩ | ⟨a, e1, e2⟩
  · refine .inl ⟨rank tr n, rank_lt h2.at_ rfl e1, ?_, e3.imp (fun e => (rank_get e rfl).1) (fun e => (rank_get e rfl).1)⟩
    rcases e3 with e3 | e3
    · exact rank_lt e3 rfl e2
    · exact rank_lt e3 rfl e2
  · exact .inr (.inl ⟨k, v, a, w, e1, ⟨rank tr n, i', now, d, (rank_get e2 rfl).1⟩, e3⟩)
  · refine .inr (.inr ⟨a, e1, fun v ⟨n, i', now, d, e⟩ => ?_⟩)
    obtain ⟨e4, e5⟩ := get_take.1 e
    obtain ⟨n, n1, rfl, _⟩ := pos e5
    exact e2 v ⟨n, i', now, d, get_take.2 ⟨of_rank e4, n1⟩⟩

/-- **C95** over the steps of `RWMap`. -/
theorem whole_results {r : Res V} (h : Sys c prog T s m) (hc : CallAt (log T) i p op q) (hq : (log T)[q]? = some (.ret i r)) (hr : r ≠ .panicked) : op.may r := by
  obtain ⟨tr, hist, as, hx, hl, _⟩ := sync_whole h
  rw [← hl] at hc hq
  obtain ⟨p, q, rfl, rfl, h1, h2⟩ := callAt_up hc hq
  exact sync_results hx h2 h1 hr
end

/-! ### Examples -/

/-- Calls of the map for the examples. -/
def exCalls : Nat → RWMap.Op Nat Nat
  | 0 => .swap 1 0
  | 1 => .load 1
  | 2 => .range
  | 3 => .compareAndDelete 1 0
  | _ => .clear

/-- Call `n` of the map, made by thread `i`, steps `x` times. -/
def maps (x i n : Nat) : List (Cmd Nat Nat) := List.replicate x (.map i n)

def sysLog (b : Bool) (l : List (Cmd Nat Nat)) : Option (List (Ev Nat Nat)) := (sysPlay (cfg b) exCalls l [] .init .init).map log

theorem sysLog_sys {b : Bool} {l : List (Cmd Nat Nat)} {tr : List (Ev Nat Nat)} (h : sysLog b l = some tr) :
    ∃ T s m, Sys (cfg b) exCalls T s m ∧ log T = tr := by
  obtain ⟨T, h1, h2⟩ := Option.map_eq_some_iff.1 h
  obtain ⟨s, m, h3⟩ := sysPlay_sys .init h1
  exact ⟨T, s, m, h3, h2⟩

/-- Thread 0 stores 7 for 10 ms at 100 ms. -/
def exStore : List (Cmd Nat Nat) := [.loc 0 (.call (.store 1 7 10000000)), .loc 0 (.time 100000000)] ++ maps 10 0 0 ++ [.loc 0 .go]

/-- `Store` and `Load` overlap, step by step of the map. -/
example : sysLog false ([.loc 0 (.call (.store 1 7 10000000)), .loc 0 (.time 100000000)] ++ maps 3 0 0 ++ [.loc 1 (.call (.load 1))] ++ maps 1 1 1 ++
      maps 7 0 0 ++ [.loc 0 .go] ++ maps 7 1 1 ++ [.loc 1 (.time 105000000), .loc 1 .go, .loc 1 .go]) =
    some [.call 0 (.store 1 7 10000000), .mk 0 0 7 100000000 10000000, .call 1 (.load 1), .ret 0 .unit, .clock 1 105000000, .seen 1 0,
      .ret 1 (.entry 0 true)] := by rfl

/-- `Range` at 200 ms finds the entry expired and removes it; in the middle of the removal `Load` finds the entry. -/
theorem exRange : sysLog true (exStore ++ [.loc 2 (.call .range)] ++ maps 7 2 2 ++ [.loc 2 (.time 200000000), .loc 2 .go] ++ maps 3 2 3 ++
      [.loc 1 (.call (.load 1))] ++ maps 4 1 1 ++ maps 3 2 3 ++ [.loc 2 .go, .loc 2 (.cbFin true), .loc 1 (.time 105000000), .loc 1 .go, .loc 1 .go] ++
      maps 2 2 2 ++ [.loc 2 .go]) =
    some [.call 0 (.store 1 7 10000000), .mk 0 0 7 100000000 10000000, .ret 0 .unit, .call 2 .range, .clock 2 200000000, .seen 2 0,
      .call 1 (.load 1), .cb 2 7, .cbEnd 2 true, .clock 1 105000000, .seen 1 0, .ret 1 (.entry 0 true), .ret 2 .unit] := by rfl

/-- The other machine can do it too. -/
example : ∃ tr hist as, Exec (cfg true) tr hist as ∧ tr.filter Ev.visible =
    [.call 0 (.store 1 7 10000000), .mk 0 0 7 100000000 10000000, .ret 0 .unit, .call 2 .range, .clock 2 200000000, .seen 2 0,
      .call 1 (.load 1), .cb 2 7, .cbEnd 2 true, .clock 1 105000000, .seen 1 0, .ret 1 (.entry 0 true), .ret 2 .unit] := by
  obtain ⟨T, s, m, h1, h2⟩ := sysLog_sys exRange
  obtain ⟨tr, hist, as, h3, h4, _⟩ := sync_whole h1
  exact ⟨tr, hist, as, h3, h4.trans h2⟩

/-- It cannot do everything: a `Load` of an empty cache finds nothing, over the steps of the map as well. -/
example {c : Cfg Nat} {T : List (Item Nat Nat)} {s : Client Nat Nat} {m : RWMap.State Nat Nat} (h : Sys c exCalls T s m) :
    log T ≠ [.call 0 (.load 1), .clock 0 1, .seen 0 0, .ret 0 (.entry 0 true)] := by
  intro hl
  have hc : CallAt (log T) 0 0 (.load 1) 3 := by
    rw [hl]
    refine ⟨by omega, rfl, fun k op h1 h2 => ?_⟩
    have : k = 1 ∨ k = 2 := by omega
    rcases this with rfl | rfl <;> simp
  obtain ⟨_, _, n, j, p, v, now, d, op, h1, h2, _⟩ := whole_load h (.inl rfl) hc (a := 0) (b := true) (by rw [hl]; rfl)
  rw [hl] at h2
  have : n = 0 ∨ n = 1 ∨ n = 2 := by omega
  rcases this with rfl | rfl | rfl <;> simp at h2
end Verif.SyncCache
