import Verif.HashRing.Crc
import Verif.Vec.Hidden
/-!
# Which nodes a hash ring keeps (C183)

The array of the vector of points (hashring.go:12-16) keeps its elements from being collected, also those beyond the
length of the vector.  `ResetNodes` (hashring.go:57-61), which `RemoveNodes` (hashring.go:89-95) calls, empties the
vector with `Clear` (vec.go:167-170), which only sets the length.
-/
namespace Verif.HashRing
variable {N : Type} [DecidableEq N]

/-- The array of the ring: the elements of its vector and what is behind them, up to the capacity. -/
def Ring.room (hr : Ring N) : List (Pt N) := hr.vm.room hr.nodes

/-- The number of points of the ring. -/
def Ring.size (hr : Ring N) : Nat := hr.vm.len hr.nodes

/-! ## Specification -/

/-- The node was a member after some of the calls. -/
def Ever (cs : List (Call N)) (n : N) : Prop := ∃ pre, pre <+: cs ∧ members pre n

/-- What would have to hold for removed nodes to be collectable: the array refers only to members (and to the zero
value). -/
def OnlyMembers (N : Type) [DecidableEq N] : Prop := ∀ (e : Env N) (r : Int) (cs : List (Call N)) (hr : Ring N),
  run e r cs = some hr → ∀ p ∈ hr.room, p = ⟨e.zero, 0⟩ ∨ members cs p.node

/-! ## The vector calls -/

/-- The vector has the elements `l`, and `h` behind them. -/
def VH (vm : Vec.VMem (Pt N)) (v : Nat) (l h : List (Pt N)) : Prop :=
  ∃ s hs, Vec.RelH vm s hs ∧ v < vm.nv ∧ s.l v = l ∧ hs v = h

omit [DecidableEq N] in
theorem VH.room {vm : Vec.VMem (Pt N)} {v : Nat} {l h : List (Pt N)} (H : VH vm v l h) : vm.room v = l ++ h ∧ vm.len v = l.length := by
  obtain ⟨s, hs, h1, hv, rfl, rfl⟩ := H
  exact ⟨h1.room v hv, (h1.len hv).symm⟩

/-- `k` elements were added: they are stored in what was behind, if they fit, and otherwise there is a new array. -/
structure Added (z : Pt N) (l h l' h' : List (Pt N)) : Prop where
  le : l.length ≤ l'.length
  sub : ∀ p ∈ l, p ∈ l'
  fit : l'.length ≤ l.length + h.length → h' = h.drop (l'.length - l.length)
  grow : l.length + h.length < l'.length → ∀ p ∈ h', p = z

omit [DecidableEq N] in
theorem Added.refl (z : Pt N) (l h : List (Pt N)) : Added z l h l h :=
  ⟨Nat.le_refl _, fun _ => id, fun _ => by simp, fun h' => by omega⟩

omit [DecidableEq N] in
theorem Added.trans {z : Pt N} {l h l' h' l'' h'' : List (Pt N)} (a : Added z l h l' h') (b : Added z l' h' l'' h'') :
    Added z l h l'' h'' := by
  have := a.le; have := b.le
  refine ⟨by omega, fun p hp => b.sub p (a.sub p hp), ?_, ?_⟩
  · intro hf
    have e := a.fit (by omega)
    have hl : h'.length = h.length - (l'.length - l.length) := by rw [e, List.length_drop]
    rw [b.fit (by omega), e, List.drop_drop]; congr 1; omega
  · intro hg p hp
    by_cases hf : l'.length ≤ l.length + h.length
    · have e := a.fit hf
      have hl : h'.length = h.length - (l'.length - l.length) := by rw [e, List.length_drop]
      exact b.grow (by omega) p hp
    · by_cases hf' : l''.length ≤ l'.length + h'.length
      · rw [b.fit hf'] at hp
        exact a.grow (by omega) p (List.mem_of_mem_drop hp)
      · exact b.grow (by omega) p hp

variable {e : Env N}

omit [DecidableEq N] in
theorem vcall_some {vm vm' : Vec.VMem (Pt N)} {op : Vec.Mut (Pt N)} (h : vcall e vm op = some vm') :
    ∃ r, Vec.exec e.elt e.g e.P vm op = some (vm', r) := by
  simp only [vcall, Option.map_eq_some_iff] at h
  obtain ⟨⟨m, r⟩, h1, rfl⟩ := h
  exact ⟨r, h1⟩

omit [DecidableEq N] in
theorem push_VH {vm vm' : Vec.VMem (Pt N)} {v : Nat} {l h : List (Pt N)} (H : VH vm v l h) {x : Pt N}
    (hc : vcall e vm (.push v [x]) = some vm') : ∃ l' h', VH vm' v l' h' ∧ Added e.elt.zero l h l' h' := by
  obtain ⟨r, hx⟩ := vcall_some hc
  obtain ⟨s, hs, h1, hv, rfl, rfl⟩ := H
  obtain ⟨s', p, z, h2, h3⟩ := Vec.step_hid h1 _ (by intro w hw; injection hw with hw; omega) hx
  simp only [Vec.spec, Option.some.injEq, Prod.mk.injEq] at h2
  obtain ⟨rfl, _⟩ := h2
  have hn := h3.rel.n; have hn' := h1.rel.n
  simp only [Vec.SState.put] at hn
  refine ⟨_, _, ⟨_, _, h3, by omega, rfl, rfl⟩, ?_⟩
  simp only [Vec.SState.put, if_true, Vec.hspec, Vec.hput, Vec.pushed, List.length_singleton]
  refine ⟨by simp, fun p hp => by simp [hp], ?_, ?_⟩
  · intro hf
    rw [List.length_append, List.length_singleton] at hf ⊢
    rw [if_pos (by omega)]; congr 1; omega
  · intro hg q hq
    rw [List.length_append, List.length_singleton] at hg
    rw [if_neg (by omega)] at hq
    exact List.eq_of_mem_replicate hq

omit [DecidableEq N] in
theorem sort_VH {vm vm' : Vec.VMem (Pt N)} {v : Nat} {l h : List (Pt N)} (H : VH vm v l h)
    (hc : vcall e vm (.sort v) = some vm') : ∃ l', VH vm' v l' h ∧ Added e.elt.zero l h l' h := by
  obtain ⟨r, hx⟩ := vcall_some hc
  obtain ⟨s, hs, h1, hv, rfl, rfl⟩ := H
  obtain ⟨s', p, z, h2, h3⟩ := Vec.step_hid h1 _ (by intro w hw; injection hw with hw; omega) hx
  simp only [Vec.spec, Option.map_eq_some_iff, Prod.mk.injEq] at h2
  obtain ⟨l', h2, rfl, _⟩ := h2
  have hn := h3.rel.n; have hn' := h1.rel.n
  simp only [Vec.SState.put] at hn
  have hp := e.P.sort_ok.perm _ _ _ h2
  refine ⟨_, ⟨_, _, h3, by omega, rfl, rfl⟩, ?_⟩
  simp only [Vec.SState.put, if_true]
  exact ⟨Nat.le_of_eq hp.length_eq.symm, fun p h => hp.mem_iff.2 h, fun _ => by simp [hp.length_eq], fun hg => by
    have := hp.length_eq; omega⟩

omit [DecidableEq N] in
theorem clear_VH {vm vm' : Vec.VMem (Pt N)} {v : Nat} {l h : List (Pt N)} (H : VH vm v l h)
    (hc : vcall e vm (.clear v) = some vm') : VH vm' v [] (l ++ h) := by
  obtain ⟨r, hx⟩ := vcall_some hc
  obtain ⟨s, hs, h1, hv, rfl, rfl⟩ := H
  obtain ⟨s', p, z, h2, h3⟩ := Vec.step_hid h1 _ (by intro w hw; injection hw with hw; omega) hx
  simp only [Vec.spec, Option.some.injEq, Prod.mk.injEq] at h2
  obtain ⟨rfl, _⟩ := h2
  have hn := h3.rel.n; have hn' := h1.rel.n
  simp only [Vec.SState.put] at hn
  exact ⟨_, _, h3, by omega, by simp [Vec.SState.put], by simp [Vec.hspec, Vec.hput]⟩

omit [DecidableEq N] in
theorem pushPts_VH (val : N) (v : Nat) : ∀ (k i : Nat) (vm vm' : Vec.VMem (Pt N)) (l h : List (Pt N)), VH vm v l h →
    pushPts e val v k i vm = some vm' → ∃ l' h', VH vm' v l' h' ∧ Added e.elt.zero l h l' h' := by
  intro k
  induction k with
  | zero => intro i vm vm' l h H hc; simp only [pushPts, Option.some.injEq] at hc; subst hc; exact ⟨l, h, H, .refl ..⟩
  | succ k ih =>
    intro i vm vm' l h H hc
    simp only [pushPts, Option.bind_eq_bind, Option.bind_eq_some_iff] at hc
    obtain ⟨vm1, c1, c2⟩ := hc
    obtain ⟨l1, h1, H1, a1⟩ := push_VH H c1
    obtain ⟨l2, h2, H2, a2⟩ := ih _ _ _ _ _ H1 c2
    exact ⟨l2, h2, H2, a1.trans a2⟩

theorem addLoop_VH (v : Nat) (r : Int) : ∀ (es : List N) (vm vm' : Vec.VMem (Pt N)) (l h : List (Pt N)), VH vm v l h →
    GoSet.rangeLoop (addBody e v r) vm es = some vm' → ∃ l' h', VH vm' v l' h' ∧ Added e.elt.zero l h l' h' := by
  intro es
  induction es with
  | nil => intro vm vm' l h H hc; simp only [GoSet.rangeLoop, Option.some.injEq] at hc; subst hc; exact ⟨l, h, H, .refl ..⟩
  | cons x es ih =>
    intro vm vm' l h H hc
    simp only [GoSet.rangeLoop, addBody, Option.bind_eq_bind, Option.bind_eq_some_iff, Option.map_eq_some_iff] at hc
    obtain ⟨⟨vm1, c⟩, ⟨vm1', c1, c2⟩, c3⟩ := hc
    injection c2 with c2 c4; subst c2; subst c4
    obtain ⟨l1, h1, H1, a1⟩ := pushPts_VH x v _ _ _ _ _ _ H c1
    obtain ⟨l2, h2, H2, a2⟩ := ih _ _ _ _ H1 (by simpa using c3)
    exact ⟨l2, h2, H2, a1.trans a2⟩

/-! ## The calls of the ring -/

theorem addNodes_VH {hr hr' : Ring N} {l h : List (Pt N)} {ns : List N} (H : VH hr.vm hr.nodes l h)
    (hc : addNodes e hr ns = some hr') : hr'.nodes = hr.nodes ∧ ∃ l' h', VH hr'.vm hr.nodes l' h' ∧ Added e.elt.zero l h l' h' := by
  unfold addNodes at hc
  split at hc
  · injection hc with hc; subst hc; exact ⟨rfl, l, h, H, .refl ..⟩
  · simp only [Option.bind_eq_bind, Option.bind_eq_some_iff, Option.some.injEq] at hc
    obtain ⟨_, _, ⟨_, _⟩, _, vm1, c1, _, _, vm2, c2, rfl⟩ := hc
    obtain ⟨l1, h1, H1, a1⟩ := addLoop_VH _ _ _ _ _ _ _ H c1
    obtain ⟨l2, H2, a2⟩ := sort_VH H1 c2
    exact ⟨rfl, l2, h1, H2, a1.trans a2⟩

theorem resetNodes_VH {hr hr' : Ring N} {l h : List (Pt N)} {ns : List N} (H : VH hr.vm hr.nodes l h)
    (hc : resetNodes e hr ns = some hr') :
    hr'.nodes = hr.nodes ∧ ∃ l' h', VH hr'.vm hr.nodes l' h' ∧ Added e.elt.zero [] (l ++ h) l' h' := by
  simp only [resetNodes, Option.bind_eq_bind, Option.bind_eq_some_iff] at hc
  obtain ⟨vm1, c1, c2⟩ := hc
  exact addNodes_VH (hr := { hr with vm := vm1, sm := GoSet.clear e.ω hr.sm hr.raw }) (clear_VH H c1) c2

/-- What a call does to the array. -/
structure Leaves (z : Pt N) (l h l' h' : List (Pt N)) : Prop where
  fit : l'.length ≤ (l ++ h).length → h' = (l ++ h).drop l'.length
  grow : (l ++ h).length < l'.length → ∀ p ∈ h', p = z

omit [DecidableEq N] in
theorem Added.leaves {z : Pt N} {l h l' h' : List (Pt N)} (a : Added z l h l' h') : Leaves z l h l' h' := by
  have := a.le
  refine ⟨fun hf => ?_, fun hg => a.grow (by simpa using hg)⟩
  rw [a.fit (by simpa using hf), Vec.drop_room a.le]

omit [DecidableEq N] in
theorem Added.leaves' {z : Pt N} {l h l' h' : List (Pt N)} (a : Added z [] (l ++ h) l' h') : Leaves z l h l' h' :=
  ⟨fun hf => by simpa using a.fit (by simpa using hf), fun hg => a.grow (by simpa using hg)⟩

theorem exec_VH {hr hr' : Ring N} {l h : List (Pt N)} {c : Call N} (H : VH hr.vm hr.nodes l h) (hc : exec e hr c = some hr') :
    hr'.nodes = hr.nodes ∧ ∃ l' h', VH hr'.vm hr.nodes l' h' ∧ Leaves e.elt.zero l h l' h' := by
  cases c with
  | add ns =>
    obtain ⟨h1, l', h', h2, h3⟩ := addNodes_VH H hc
    exact ⟨h1, l', h', h2, h3.leaves⟩
  | reset ns =>
    obtain ⟨h1, l', h', h2, h3⟩ := resetNodes_VH H hc
    exact ⟨h1, l', h', h2, h3.leaves'⟩
  | remove ns =>
    simp only [exec, removeNodes] at hc
    split at hc
    · injection hc with hc; subst hc; exact ⟨rfl, l, h, H, (Added.refl _ l h).leaves⟩
    · simp only [Option.bind_eq_bind, Option.bind_eq_some_iff] at hc
      obtain ⟨_, _, ⟨_, _⟩, _, ⟨m4, d⟩, _, c4⟩ := hc
      obtain ⟨h1, l', h', h2, h3⟩ := resetNodes_VH (hr := { hr with sm := (GoSet.slice e.ω m4 d).1 }) H c4
      exact ⟨h1, l', h', h2, h3.leaves'⟩

omit [DecidableEq N] in
theorem new_VH {r : Int} {hr : Ring N} (hc : new e r = some hr) : VH hr.vm hr.nodes [] [] := by
  simp only [new, Option.bind_eq_bind, Option.bind_eq_some_iff, Option.some.injEq] at hc
  obtain ⟨vm, c1, rfl⟩ := hc
  obtain ⟨r', hx⟩ := vcall_some c1
  obtain ⟨s, hs, z, s', p, _, h2, h3⟩ := (Vec.Run.nil (E := e.elt) (g := e.g) (P := e.P)).room (by intro w hw; cases hw) hx
  rename_i h1
  have hn := h1.rel.n
  have h0 : s.n = 0 := by simpa [Vec.VMem.empty] using hn.symm
  simp only [Vec.spec, Option.some.injEq, Prod.mk.injEq] at h2
  obtain ⟨rfl, _⟩ := h2
  have hn' := h3.rel.n
  simp only [] at hn'
  exact ⟨_, _, h3, by simp only []; omega, by simp [h0], by simp [Vec.hspec, Vec.hput, h0]⟩

/-- Everything at once: the present points, and where what is behind them comes from. -/
theorem run_VH {r : Int} {cs : List (Call N)} {hr : Ring N} (h : run e r cs = some hr) :
    ∃ l b, VH hr.vm hr.nodes l b ∧ Inv e hr (members cs) l ∧ ∀ p ∈ l ++ b, p = e.elt.zero ∨ Ever cs p.node := by
  obtain ⟨hr0, n1, n2, n3⟩ := new_inv (e := e) r
  simp only [run, n1, Option.bind_eq_bind, Option.bind_some] at h
  have key : ∀ (cs pre : List (Call N)) (hr hr' : Ring N) (l b : List (Pt N)), VH hr.vm hr.nodes l b → Inv e hr (members pre) l →
      (∀ p ∈ l ++ b, p = e.elt.zero ∨ Ever pre p.node) → cs.foldlM (exec e) hr = some hr' →
      ∃ l b, VH hr'.vm hr'.nodes l b ∧ Inv e hr' (members (pre ++ cs)) l ∧ ∀ p ∈ l ++ b, p = e.elt.zero ∨ Ever (pre ++ cs) p.node := by
    intro cs
    induction cs with
    | nil =>
      intro pre hr hr' l b H hi hp hc
      simp only [List.foldlM_nil, Option.pure_def, Option.some.injEq] at hc
      subst hc
      simp only [List.append_nil]
      exact ⟨l, b, H, hi, hp⟩
    | cons c cs ih =>
      intro pre hr hr' l b H hi hp hc
      obtain ⟨hr1, l1, a1, a2, a3⟩ := exec_inv hi c
      simp only [List.foldlM_cons, a1, Option.bind_eq_bind, Option.bind_some] at hc
      obtain ⟨hn, l2, b2, H2, lv⟩ := exec_VH H a1
      rw [← hn] at H2
      have hl : l1 = l2 := by
        obtain ⟨s, r1, v1, e1, _⟩ := a3.vec.ex
        obtain ⟨s', hs', r2, v2, e2, _⟩ := H2
        rw [← e1, ← e2, ← r1.list _ v1, ← r2.rel.list _ v1]
      subst hl
      have hm : members (pre ++ [c]) = c.apply (members pre) := by simp [members]
      have a4 : Inv e hr1 (members (pre ++ [c])) l1 := by rw [hm]; exact a3
      have up : ∀ n, Ever pre n → Ever (pre ++ [c]) n := by
        rintro n ⟨q, ⟨t, ht⟩, h2⟩
        exact ⟨q, ⟨t ++ [c], by rw [← List.append_assoc, ht]⟩, h2⟩
      have a5 : ∀ p ∈ l1 ++ b2, p = e.elt.zero ∨ Ever (pre ++ [c]) p.node := by
        intro p hp'
        rcases List.mem_append.1 hp' with h' | h'
        · obtain ⟨ms, _, m2, m3⟩ := a4.pts
          have := m3.mem_iff.1 h'
          rw [List.mem_flatMap] at this
          obtain ⟨n, q1, q2⟩ := this
          simp only [points, List.mem_map] at q2
          obtain ⟨i, _, rfl⟩ := q2
          exact .inr ⟨_, List.prefix_refl _, (m2 n).1 q1⟩
        · by_cases hf : l1.length ≤ (l ++ b).length
          · rw [lv.fit hf] at h'
            exact (hp p (List.mem_of_mem_drop h')).imp_right (up _)
          · exact .inl (lv.grow (by omega) p h')
      have := ih (pre ++ [c]) hr1 hr' l1 b2 H2 a4 a5 hc
      simpa using this
  have := key cs [] hr0 hr [] [] (new_VH n1) n3 (by simp) h
  simpa using this

/-! ## C183 -/

/-- **C183** (what holds): the array of a ring refers only to nodes that were members at some time, and to the zero
value; its first cells are the points of the present members. -/
theorem C183_partial {r : Int} {cs : List (Call N)} {hr : Ring N} (h : run e r cs = some hr) :
    (∀ p ∈ hr.room, p = ⟨e.zero, 0⟩ ∨ Ever cs p.node) ∧ ∀ p ∈ hr.room.take hr.size, members cs p.node := by
  obtain ⟨l, b, H, hi, hp⟩ := run_VH h
  obtain ⟨e1, e2⟩ := H.room
  refine ⟨?_, ?_⟩
  · rw [Ring.room, e1]; exact hp
  · rw [Ring.room, Ring.size, e1, e2, List.take_left]
    intro p h'
    obtain ⟨ms, _, m2, m3⟩ := hi.pts
    have := m3.mem_iff.1 h'
    rw [List.mem_flatMap] at this
    obtain ⟨n, q1, q2⟩ := this
    simp only [points, List.mem_map] at q2
    obtain ⟨i, _, rfl⟩ := q2
    exact (m2 n).1 q1

/-- **C183** (exactly): a call stores the points it leaves the ring with at the front of the array, and leaves the rest of the
array as it is; if the points do not fit there is a new array, with zero values behind them. -/
theorem C183_call {r : Int} {cs : List (Call N)} {hr : Ring N} (h : run e r cs = some hr) (c : Call N) :
    ∃ hr', exec e hr c = some hr' ∧
      (hr'.size ≤ hr.room.length → hr'.room.drop hr'.size = hr.room.drop hr'.size ∧ hr'.room.length = hr.room.length) ∧
      (hr.room.length < hr'.size → ∀ p ∈ hr'.room.drop hr'.size, p = ⟨e.zero, 0⟩) := by
  obtain ⟨l, b, H, hi, _⟩ := run_VH h
  obtain ⟨hr', l1, a1, _, _⟩ := exec_inv hi c
  obtain ⟨hn, l', b', H', lv⟩ := exec_VH H a1
  obtain ⟨e1, e2⟩ := H.room
  obtain ⟨e3, e4⟩ := H'.room
  refine ⟨hr', a1, ?_, ?_⟩
  · rw [Ring.room, Ring.room, Ring.size, hn, e1, e3, e4, List.drop_left]
    intro hf
    have := lv.fit hf
    refine ⟨this, ?_⟩
    rw [List.length_append (as := l'), this, List.length_drop]; omega
  · rw [Ring.room, Ring.room, Ring.size, hn, e1, e3, e4, List.drop_left]
    exact lv.grow

/-- **C183** (exactly): `RemoveNodes` always leaves everything behind the points that remain. -/
theorem C183_remove {r : Int} {cs : List (Call N)} {hr : Ring N} (h : run e r cs = some hr) (ns : List N) :
    ∃ hr', exec e hr (.remove ns) = some hr' ∧ hr'.size ≤ hr.size ∧ hr'.room.drop hr'.size = hr.room.drop hr'.size ∧
      hr'.room.length = hr.room.length := by
  obtain ⟨l, b, H, hi, _⟩ := run_VH h
  obtain ⟨hr', l1, a1, a2, a3⟩ := exec_inv hi (.remove ns)
  obtain ⟨hr'', b1, b2, _⟩ := C183_call h (.remove ns)
  rw [a1] at b1; injection b1 with b1; subst b1
  obtain ⟨e1, e2⟩ := H.room
  have hlen : hr'.size = l1.length := by
    obtain ⟨s, r1, v1, e1, _⟩ := a3.vec.ex
    rw [Ring.size, r1.len v1, e1]
  have hle : hr'.size ≤ hr.size := by
    obtain ⟨ms, m1, m2, m3⟩ := hi.pts
    obtain ⟨ms', n1, n2, n3⟩ := a3.pts
    have hs : ms'.length ≤ ms.length := (n1.subperm fun x hx => (m2 x).2 ((n2 x).1 hx).1).length_le
    rw [hlen, Ring.size, e2, m3.length_eq, n3.length_eq, a2]
    simp only [List.length_flatMap, points, List.length_map, List.length_range, List.map_const', List.sum_replicate_nat]
    exact Nat.mul_le_mul_right _ hs
  have hc : hr.size ≤ hr.room.length := by rw [Ring.size, Ring.room, e1, e2, List.length_append]; omega
  exact ⟨hr', a1, hle, b2 (by omega)⟩

/-- **C183** (exactly): removing all nodes, by either method, changes nothing in the array. -/
theorem C183_all {r : Int} {cs : List (Call N)} {hr : Ring N} (h : run e r cs = some hr) :
    (∃ hr', exec e hr (.reset []) = some hr' ∧ hr'.size = 0 ∧ hr'.room = hr.room) ∧
    ∀ ns, (∀ n, members cs n → n ∈ ns) → ∃ hr', exec e hr (.remove ns) = some hr' ∧ hr'.size = 0 ∧ hr'.room = hr.room := by
  obtain ⟨l, b, H, hi, _⟩ := run_VH h
  have key : ∀ c : Call N, (∀ n, ¬ c.apply (members cs) n) → ∃ hr', exec e hr c = some hr' ∧ hr'.size = 0 ∧ hr'.room = hr.room := by
    intro c hno
    obtain ⟨hr', l1, a1, a2, a3⟩ := exec_inv hi c
    obtain ⟨hr'', b1, b2, _⟩ := C183_call h c
    rw [a1] at b1; injection b1 with b1; subst b1
    have h0 : hr'.size = 0 := by
      obtain ⟨s, r1, v1, e1, _⟩ := a3.vec.ex
      obtain ⟨ms, m1, m2, m3⟩ := a3.pts
      have : ms = [] := List.eq_nil_iff_forall_not_mem.2 fun x hx => hno x ((m2 x).1 hx)
      rw [Ring.size, r1.len v1, e1, m3.length_eq, this]; rfl
    refine ⟨hr', a1, h0, ?_⟩
    have := (b2 (by omega)).1
    simpa [h0] using this
  refine ⟨key _ (by simp [Call.apply]), fun ns hns => key _ ?_⟩
  rintro n ⟨h1, h2⟩
  exact h2 (hns n h1)

/-! ## Examples -/

def roomOf (e : Env Nat) (r : Int) (cs : List (Call Nat)) : Option (Nat × List (Nat × Nat)) :=
  (run e r cs).map fun hr => (hr.size, hr.room.map fun p => (p.node, p.hash))

-- the removed node 7 stays, in the array and behind the length
example : roomOf numEnv 2 [.add [7, 2], .remove [7]] = some (2, [(2, 200), (2, 237), (7, 700), (7, 737)]) := by decide +kernel
example : roomOf numEnv 2 [.add [7, 2], .reset []] = some (0, [(2, 200), (2, 237), (7, 700), (7, 737)]) := by decide +kernel
-- the removed node 2 had the smaller hashes, and is overwritten
example : roomOf numEnv 2 [.add [7, 2], .remove [2]] = some (2, [(7, 700), (7, 737), (7, 700), (7, 737)]) := by decide +kernel
-- the removed node 7 is overwritten by the points of a later one
example : roomOf numEnv 2 [.add [7, 2], .remove [7], .add [3]] = some (4, [(2, 200), (2, 237), (3, 300), (3, 337)]) := by decide +kernel
-- a new array
example : (roomOf numEnv 1 [.add [7, 2], .remove [7], .add [3, 1, 4]]).map (·.2.map (·.1)) = some [1, 2, 3, 4] := by decide +kernel

/-- **C183 is false**: a ring keeps removed nodes. -/
theorem C183_false : ¬ OnlyMembers Nat := by
  intro h
  have hx : (roomOf numEnv 2 [.add [7, 2], .remove [7]]).map (·.2) = some [(2, 200), (2, 237), (7, 700), (7, 737)] := by decide +kernel
  cases hr : run numEnv 2 [.add [7, 2], .remove [7]] with
  | none => simp [roomOf, hr] at hx
  | some r =>
    simp only [roomOf, hr, Option.map_some, Option.some.injEq] at hx
    have hm : ((7, 700) : Nat × Nat) ∈ r.room.map fun p => (p.node, p.hash) := by rw [hx]; simp
    obtain ⟨p, hp, e⟩ := List.mem_map.1 hm
    injection e with e1 e2
    rcases h _ _ _ _ hr p hp with h' | h'
    · subst h'; exact absurd e1 (by decide)
    · rw [e1] at h'; simp [members, Call.apply] at h'

end Verif.HashRing
