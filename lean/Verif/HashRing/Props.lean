import Verif.HashRing.Lemmas
/-!
# C61–C65: the hash ring

Every theorem is about a ring made by `New(replicas)` and any calls, with any hash function, map
iteration orders, allocator and sorting function (`Env`).
-/
namespace Verif.HashRing
open GoSet (contain)
variable {N : Type} [DecidableEq N] {e : Env N}

/-- The points in the vector of the ring, in order. -/
def Ring.pts (hr : Ring N) : List (Pt N) := hr.vm.mem.read (hr.vm.slice hr.nodes)

theorem mem_points {hash : N → Nat → Nat} {r : Nat} {M : N → Prop} {ms : List N} (hm : ∀ x, x ∈ ms ↔ M x) (p : Pt N) :
    p ∈ ms.flatMap (points hash r) ↔ IsPoint hash r M p := by
  simp only [List.mem_flatMap, points, List.mem_map, List.mem_range, IsPoint, hm]
  constructor
  · rintro ⟨a, h1, i, h2, rfl⟩
    exact ⟨h1, i, h2, rfl⟩
  · rintro ⟨h1, i, h2, h3⟩
    exact ⟨p.node, h1, i, h2, by rw [← h3]⟩

theorem Inv.mem {hr : Ring N} {M : N → Prop} {l : List (Pt N)} (h : Inv e hr M l) (p : Pt N) :
    p ∈ l ↔ IsPoint e.hash hr.replicas.toNat M p := by
  obtain ⟨ms, _, h2, h3⟩ := h.pts
  rw [h3.mem_iff, mem_points h2]

/-- What `GetNode` does: the zero value without points, the key itself if its hash is a point, the
owner of the next point otherwise. -/
theorem getNode_cases {hr : Ring N} {M : N → Prop} {l : List (Pt N)} (h : Inv e hr M l) (key : N) :
    ((∀ p, ¬ IsPoint e.hash hr.replicas.toNat M p) ∧ getNode e hr key = some e.zero) ∨
    ((∃ p, IsPoint e.hash hr.replicas.toNat M p ∧ p.hash = e.hash key 0) ∧ getNode e hr key = some key) ∨
    ((¬ ∃ p, IsPoint e.hash hr.replicas.toNat M p ∧ p.hash = e.hash key 0) ∧
      ∃ n, getNode e hr key = some n ∧ Owns e.hash hr.replicas.toNat M (e.hash key 0) n) := by
  have hsh := h.vec.shows (e := e)
  obtain ⟨c1, c2⟩ := h.vec.cmp (e := e)
  unfold getNode
  by_cases hl : l = []
  · left
    refine ⟨fun p hp => ?_, if_pos (by rw [hsh.len, hl]; rfl)⟩
    have := (h.mem p).2 hp
    rw [hl] at this; cases this
  right
  have hlen : l.length ≠ 0 := fun h' => hl (List.length_eq_zero_iff.1 h')
  rw [if_neg (by rw [hsh.len]; exact hlen)]
  have hsorted : l.Pairwise (fun a b => ptLess b a = false) :=
    h.sorted.imp (by intro a b; simp only [ptLess, decide_eq_false_iff_not]; omega)
  obtain ⟨r, b, b1, b2, b3, b4, b5⟩ := Vec.C55_binarySearch hsh pt_order c1 c2 hsorted ⟨key, e.hash key 0⟩
  simp only [b1, Option.bind_eq_bind, Option.bind_some]
  simp only [ptEq, decide_eq_true_eq] at b4
  simp only [ptLess, decide_eq_true_eq] at b3
  cases b with
  | true =>
    left
    obtain ⟨x, hx, hxe⟩ := b4.1 rfl
    exact ⟨⟨x, (h.mem x).1 hx, hxe⟩, rfl⟩
  | false =>
    right
    have hno : ∀ x ∈ l, x.hash ≠ e.hash key 0 := by
      intro x hx hxe
      exact absurd (b4.2 ⟨x, hx, hxe⟩) (by simp)
    refine ⟨fun ⟨p, hp, hpe⟩ => hno p ((h.mem p).2 hp) hpe, ?_⟩
    rw [if_neg (by simp), hsh.len]
    have hpw : ∀ (i j : Nat) (x y : Pt N), i < j → l[i]? = some x → l[j]? = some y → x.hash ≤ y.hash :=
      fun i j x y hij hx hy => Vec.pairwise_at h.sorted hij hx hy
    by_cases hr : r = l.length
    · rw [if_pos hr]
      cases hh : l with
      | nil => contradiction
      | cons x t =>
        refine ⟨x.node, by rw [hsh.first, hh]; rfl, x, (h.mem x).1 (by rw [hh]; exact List.mem_cons_self), rfl, ?_⟩
        intro q hq
        obtain ⟨j, hj⟩ := List.mem_iff_getElem?.1 ((h.mem q).2 hq)
        have hjl : j < l.length := (List.getElem?_eq_some_iff.1 hj).1
        have h0 : l[0]? = some x := by rw [hh]; rfl
        have hxk := (b3 0 x h0).2 (by omega)
        have hqk := (b3 j q hj).2 (by omega)
        refine .inr ⟨hxk, hqk, ?_⟩
        rcases Nat.eq_zero_or_pos j with hj0 | hj0
        · subst hj0; rw [hj] at h0; injection h0 with h0; exact Nat.le_of_eq (by rw [h0])
        · exact hpw 0 j x q hj0 h0 hj
    · rw [if_neg hr]
      have hrl : r < l.length := by omega
      have hx : l[r]? = some l[r] := List.getElem?_eq_getElem hrl
      refine ⟨l[r].node, by rw [hsh.get r _ hx], l[r], (h.mem _).1 (List.getElem_mem hrl), rfl, ?_⟩
      intro q hq
      obtain ⟨j, hj⟩ := List.mem_iff_getElem?.1 ((h.mem q).2 hq)
      have hge : e.hash key 0 ≤ l[r].hash := by
        have := b3 r _ hx
        omega
      refine .inl ⟨hge, fun hkq => ?_⟩
      have hj' := b3 j q hj
      rcases Nat.lt_trichotomy j r with hjr | hjr | hjr
      · have := hj'.2 hjr; omega
      · subst hjr; rw [hj] at hx; injection hx with hx; exact Nat.le_of_eq (by rw [← hx])
      · exact hpw r j _ q hjr hx hj

theorem IsPoint.member {hash : N → Nat → Nat} {r : Nat} {M : N → Prop} {p : Pt N} (h : IsPoint hash r M p) : M p.node := h.1

theorem Owns.member {hash : N → Nat → Nat} {r : Nat} {M : N → Prop} {k : Nat} {n : N} (h : Owns hash r M k n) : M n := by
  obtain ⟨p, h1, rfl, _⟩ := h
  exact h1.1

/-- The owner is unique. -/
theorem Owns.unique {hash : N → Nat → Nat} {r : Nat} {M : N → Prop} (ha : Apart hash r M) {k : Nat} {n n' : N}
    (h : Owns hash r M k n) (h' : Owns hash r M k n') : n = n' := by
  obtain ⟨p, h1, rfl, h2⟩ := h
  obtain ⟨q, h3, rfl, h4⟩ := h'
  refine ha p q h1 h3 ?_
  have := h2 q h3
  have := h4 p h1
  unfold NotAfter at *
  omega

/-- With a point at the key's hash, its owner owns the key. -/
theorem owns_of_hit {hash : N → Nat → Nat} {r : Nat} {M : N → Prop} {p : Pt N} (hp : IsPoint hash r M p) :
    Owns hash r M p.hash p.node :=
  ⟨p, hp, rfl, fun _ _ => .inl ⟨Nat.le_refl _, fun h => h⟩⟩

theorem Apart.mono {hash : N → Nat → Nat} {r : Nat} {M M' : N → Prop} (h : Apart hash r M') (hs : ∀ x, M x → M' x) :
    Apart hash r M := fun p q hp hq => h p q ⟨hs _ hp.1, hp.2⟩ ⟨hs _ hq.1, hq.2⟩

theorem KeyApart.mono {hash : N → Nat → Nat} {r : Nat} {M M' : N → Prop} {key : N} (h : KeyApart hash r M' key)
    (hs : ∀ x, M x → M' x) : KeyApart hash r M key := fun p hp => h p ⟨hs _ hp.1, hp.2⟩

/-- `GetNode` with a key whose hash is nobody else's point. -/
theorem getNode_owns {hr : Ring N} {M : N → Prop} {l : List (Pt N)} (h : Inv e hr M l) {key : N}
    (hk : KeyApart e.hash hr.replicas.toNat M key) :
    ((∀ p, ¬ IsPoint e.hash hr.replicas.toNat M p) ∧ getNode e hr key = some e.zero) ∨
    ∃ n, getNode e hr key = some n ∧ Owns e.hash hr.replicas.toNat M (e.hash key 0) n := by
  rcases getNode_cases h key with h' | ⟨⟨p, hp, hpe⟩, hg⟩ | ⟨_, h'⟩
  · exact .inl h'
  · have := owns_of_hit hp
    rw [hpe, hk p hp hpe] at this
    exact .inr ⟨key, hg, this⟩
  · exact .inr h'

/-! ## C62 -/

/-- **C62**: without points `GetNode` returns the zero value; otherwise the owner of the first point
clockwise from the hash of the key, if no other node has a point exactly there. -/
theorem C62 (r : Int) (cs : List (Call N)) (key : N) (hk : KeyApart e.hash r.toNat (members cs) key) :
    ∃ hr, run e r cs = some hr ∧
      ((∀ n, members cs n → r ≤ 0) → getNode e hr key = some e.zero) ∧
      (0 < r → (∃ n, members cs n) → ∃ n, getNode e hr key = some n ∧ Owns e.hash r.toNat (members cs) (e.hash key 0) n) := by
  obtain ⟨hr, l, h1, h2, h3⟩ := run_inv (e := e) r cs
  rw [← h2] at hk
  refine ⟨hr, h1, ?_, ?_⟩
  · intro hz
    rcases getNode_owns h3 hk with h' | ⟨n, h4, p, ⟨hp, i, hi, _⟩, _⟩
    · exact h'.2
    · have := hz _ hp
      rw [h2] at hi; omega
  · intro hpos ⟨n, hn⟩
    rcases getNode_owns h3 hk with h' | h'
    · exact absurd ⟨hn, 0, by rw [h2]; omega, rfl⟩ (h'.1 ⟨n, e.hash n 0⟩)
    · rw [h2] at h'; exact h'

/-- **C62**, with collisions: what is returned exactly. -/
theorem C62_exact (r : Int) (cs : List (Call N)) (key : N) :
    ∃ hr n, run e r cs = some hr ∧ getNode e hr key = some n ∧
      ((∀ p, ¬ IsPoint e.hash r.toNat (members cs) p) → n = e.zero) ∧
      ((∃ p, IsPoint e.hash r.toNat (members cs) p ∧ p.hash = e.hash key 0) → n = key) ∧
      ((∃ p, IsPoint e.hash r.toNat (members cs) p) →
        (¬ ∃ p, IsPoint e.hash r.toNat (members cs) p ∧ p.hash = e.hash key 0) →
        Owns e.hash r.toNat (members cs) (e.hash key 0) n) := by
  obtain ⟨hr, l, h1, h2, h3⟩ := run_inv (e := e) r cs
  have hc := getNode_cases h3 key
  rw [h2] at hc
  rcases hc with ⟨a, b⟩ | ⟨⟨p, a, a'⟩, b⟩ | ⟨a, n, b, c⟩
  · exact ⟨hr, _, h1, b, fun _ => rfl, fun ⟨p, hp, _⟩ => absurd hp (a p), fun ⟨p, hp⟩ => absurd hp (a p)⟩
  · exact ⟨hr, _, h1, b, fun h => absurd a (h p), fun _ => rfl, fun _ h => absurd ⟨p, a, a'⟩ h⟩
  · refine ⟨hr, n, h1, b, ?_, fun h => absurd h a, fun _ _ => c⟩
    intro h
    obtain ⟨q, hq, _⟩ := c
    exact absurd hq (h q)

/-! ## C61 -/

/-- **C61** in full: `GetNode` of a ring with members returns a member. -/
def C61_statement (e : Env N) : Prop :=
  ∀ (r : Int) (cs : List (Call N)) (key : N), 0 < r → (∃ n, members cs n) →
    ∃ hr n, run e r cs = some hr ∧ getNode e hr key = some n ∧ members cs n

/-- **C61**, for keys whose hash is no point of another node; any other key may be returned itself. -/
theorem C61_partial (r : Int) (cs : List (Call N)) (key : N) (hpos : 0 < r) (hm : ∃ n, members cs n) :
    ∃ hr n, run e r cs = some hr ∧ getNode e hr key = some n ∧ (members cs n ∨ n = key) ∧
      (KeyApart e.hash r.toNat (members cs) key → members cs n) := by
  obtain ⟨hr, l, h1, h2, h3⟩ := run_inv (e := e) r cs
  obtain ⟨m, hm⟩ := hm
  have hp0 : IsPoint e.hash hr.replicas.toNat (members cs) ⟨m, e.hash m 0⟩ := ⟨hm, 0, by rw [h2]; omega, rfl⟩
  have hc := getNode_cases h3 key
  rw [h2] at hc hp0
  rcases hc with ⟨a, b⟩ | ⟨⟨p, a, a'⟩, b⟩ | ⟨a, n, b, c⟩
  · exact absurd hp0 (a _)
  · exact ⟨hr, _, h1, b, .inr rfl, fun hk => hk p a a' ▸ a.1⟩
  · exact ⟨hr, n, h1, b, .inl c.member, fun _ => c.member⟩

/-! ## C63 -/

/-- **C63**: two rings with the same replicas and the same members, whatever the calls, iteration orders,
allocator and sorting function, agree on every key, if different members have different points. -/
theorem C63 (e' : Env N) (hh : e'.hash = e.hash) (hz : e'.zero = e.zero) (r : Int) (cs cs' : List (Call N))
    (hm : ∀ x, members cs x ↔ members cs' x) (ha : Apart e.hash r.toNat (members cs)) (key : N) :
    ∃ hr hr' n, run e r cs = some hr ∧ run e' r cs' = some hr' ∧ getNode e hr key = some n ∧
      getNode e' hr' key = some n := by
  obtain ⟨hr, l, h1, h2, h3⟩ := run_inv (e := e) r cs
  obtain ⟨hr', l', h1', h2', h3'⟩ := run_inv (e := e') r cs'
  have h4 := h3'.congr (fun x => (hm x).symm)
  have hc := getNode_cases h3 key
  have hc' := getNode_cases h4 key
  rw [h2] at hc
  rw [h2', hh, hz] at hc'
  suffices ∃ n, getNode e hr key = some n ∧ getNode e' hr' key = some n by
    obtain ⟨n, a, b⟩ := this
    exact ⟨hr, hr', n, h1, h1', a, b⟩
  rcases hc with ⟨a, b⟩ | ⟨⟨p, a, a'⟩, b⟩ | ⟨a, n, b, c⟩
  · rcases hc' with ⟨a1, b1⟩ | ⟨⟨q, a1, a1'⟩, b1⟩ | ⟨a1, n1, b1, q, hq, _⟩
    · exact ⟨_, b, b1⟩
    · exact absurd a1 (a q)
    · exact absurd hq (a q)
  · rcases hc' with ⟨a1, b1⟩ | ⟨⟨q, a1, a1'⟩, b1⟩ | ⟨a1, n1, b1, c1⟩
    · exact absurd a (a1 p)
    · exact ⟨_, b, b1⟩
    · exact absurd ⟨p, a, a'⟩ a1
  · rcases hc' with ⟨a1, b1⟩ | ⟨⟨q, a1, a1'⟩, b1⟩ | ⟨a1, n1, b1, c1⟩
    · obtain ⟨q, hq, _⟩ := c
      exact absurd hq (a1 q)
    · exact absurd ⟨q, a1, a1'⟩ a
    · exact ⟨n, b, by rw [b1, c.unique ha c1]⟩

/-! ## C64 -/

/-- **C64**, adding: every key keeps its node or goes to an added one. -/
theorem C64_add (r : Int) (cs : List (Call N)) (ns : List N) (key : N)
    (ha : Apart e.hash r.toNat (fun x => members cs x ∨ x ∈ ns))
    (hk : KeyApart e.hash r.toNat (fun x => members cs x ∨ x ∈ ns) key) :
    ∃ hr hr' n n', run e r cs = some hr ∧ addNodes e hr ns = some hr' ∧ getNode e hr key = some n ∧
      getNode e hr' key = some n' ∧ (n' = n ∨ n' ∈ ns) := by
  obtain ⟨hr, l, h1, h2, h3⟩ := run_inv (e := e) r cs
  obtain ⟨hr', l', h4, h5, h6⟩ := addNodes_inv h3 ns
  have hg := getNode_owns h3 (key := key) (by rw [h2]; exact hk.mono fun x hx => .inl hx)
  have hg' := getNode_owns h6 (key := key) (by rw [h5, h2]; exact hk)
  rw [h2] at hg
  rw [h5, h2] at hg'
  suffices ∃ n n', getNode e hr key = some n ∧ getNode e hr' key = some n' ∧ (n' = n ∨ n' ∈ ns) by
    obtain ⟨n, n', a⟩ := this
    exact ⟨hr, hr', n, n', h1, h4, a⟩
  rcases hg with ⟨a, b⟩ | ⟨n, b, c⟩
  · rcases hg' with ⟨a', b'⟩ | ⟨n', b', c'⟩
    · exact ⟨_, _, b, b', .inl rfl⟩
    · refine ⟨_, _, b, b', .inr ?_⟩
      obtain ⟨p, ⟨hp, hi⟩, rfl, _⟩ := c'
      rcases hp with hp | hp
      · exact absurd ⟨hp, hi⟩ (a p)
      · exact hp
  · rcases hg' with ⟨a', b'⟩ | ⟨n', b', c'⟩
    · obtain ⟨p, ⟨hp, hi⟩, _⟩ := c
      exact absurd ⟨.inl hp, hi⟩ (a' p)
    · refine ⟨_, _, b, b', ?_⟩
      obtain ⟨p, ⟨hp, hi⟩, rfl, hmin⟩ := c'
      rcases hp with hp | hp
      · left
        have : Owns e.hash r.toNat (members cs) (e.hash key 0) p.node :=
          ⟨p, ⟨hp, hi⟩, rfl, fun q hq => hmin q ⟨.inl hq.1, hq.2⟩⟩
        exact this.unique (ha.mono fun x hx => .inl hx) c
      · exact .inr hp

/-- **C64**, removing: every key of a node that is not removed keeps its node. -/
theorem C64_remove (r : Int) (cs : List (Call N)) (ns : List N) (key : N)
    (ha : Apart e.hash r.toNat (members cs)) (hk : KeyApart e.hash r.toNat (members cs) key) :
    ∃ hr hr' n n', run e r cs = some hr ∧ removeNodes e hr ns = some hr' ∧ getNode e hr key = some n ∧
      getNode e hr' key = some n' ∧ (n ∉ ns → n' = n) := by
  obtain ⟨hr, l, h1, h2, h3⟩ := run_inv (e := e) r cs
  obtain ⟨hr', l', h4, h5, h6⟩ := removeNodes_inv h3 ns
  have hg := getNode_owns h3 (key := key) (by rw [h2]; exact hk)
  have hg' := getNode_owns h6 (key := key) (by rw [h5, h2]; exact hk.mono fun x hx => hx.1)
  rw [h2] at hg
  rw [h5, h2] at hg'
  suffices ∃ n n', getNode e hr key = some n ∧ getNode e hr' key = some n' ∧ (n ∉ ns → n' = n) by
    obtain ⟨n, n', a⟩ := this
    exact ⟨hr, hr', n, n', h1, h4, a⟩
  rcases hg with ⟨a, b⟩ | ⟨n, b, c⟩
  · rcases hg' with ⟨a', b'⟩ | ⟨n', b', c'⟩
    · exact ⟨_, _, b, b', fun _ => rfl⟩
    · obtain ⟨p, ⟨hp, hi⟩, _⟩ := c'
      exact absurd ⟨hp.1, hi⟩ (a p)
  · rcases hg' with ⟨a', b'⟩ | ⟨n', b', c'⟩
    · refine ⟨_, _, b, b', fun hn => ?_⟩
      obtain ⟨p, ⟨hp, hi⟩, rfl, _⟩ := c
      exact absurd ⟨⟨hp, hn⟩, hi⟩ (a' p)
    · refine ⟨_, _, b, b', fun hn => ?_⟩
      obtain ⟨p, ⟨hp, hi⟩, rfl, hmin⟩ := c
      have : Owns e.hash r.toNat (fun x => members cs x ∧ x ∉ ns) (e.hash key 0) p.node :=
        ⟨p, ⟨⟨hp, hn⟩, hi⟩, rfl, fun q hq => hmin q ⟨hq.1.1, hq.2⟩⟩
      exact c'.unique (ha.mono fun x hx => hx.1) this

/-! ## C65 -/

/-- **C65**: no call panics; the points of the ring are, as a multiset, `replicas` points for each member,
in the order of their hashes; the set of members is what the calls say. -/
theorem C65 (r : Int) (cs : List (Call N)) :
    ∃ hr, ∃ ms : List N, run e r cs = some hr ∧ ms.Nodup ∧ (∀ x, x ∈ ms ↔ members cs x) ∧
      (∀ x, contain hr.sm hr.raw x = true ↔ members cs x) ∧
      hr.pts.Perm (ms.flatMap (points e.hash r.toNat)) ∧ hr.pts.Pairwise (fun p q => p.hash ≤ q.hash) := by
  obtain ⟨hr, l, h1, h2, h3⟩ := run_inv (e := e) r cs
  obtain ⟨ms, m1, m2, m3⟩ := h3.pts
  have : hr.pts = l := (h3.vec.shows (e := e)).slice
  rw [h2] at m3
  exact ⟨hr, ms, h1, m1, m2, h3.raw, by rw [this]; exact m3, by rw [this]; exact h3.sorted⟩

theorem perm_lists {r : Nat} {hash : N → Nat → Nat} {ms ms' : List N} (h1 : ms.Nodup) (h2 : ms'.Nodup)
    (h : ∀ x, x ∈ ms ↔ x ∈ ms') : (ms.flatMap (points hash r)).Perm (ms'.flatMap (points hash r)) :=
  ((List.perm_ext_iff_of_nodup h1 h2).2 h).flatMap_right _

/-- **C65**: adding members again, or removing nodes that are no members, leaves the points and the members
as they are. -/
theorem C65_noop (r : Int) (cs : List (Call N)) (c : Call N)
    (hc : (∃ ns, c = .add ns ∧ ∀ n ∈ ns, members cs n) ∨ (∃ ns, c = .remove ns ∧ ∀ n ∈ ns, ¬ members cs n)) :
    ∃ hr hr', run e r cs = some hr ∧ exec e hr c = some hr' ∧ hr'.pts.Perm hr.pts ∧
      ∀ x, contain hr'.sm hr'.raw x = contain hr.sm hr.raw x := by
  obtain ⟨hr, l, h1, h2, h3⟩ := run_inv (e := e) r cs
  obtain ⟨hr', l', h4, h5, h6⟩ := exec_inv h3 c
  have hp : hr.pts = l := (h3.vec.shows (e := e)).slice
  have hp' : hr'.pts = l' := (h6.vec.shows (e := e)).slice
  have hm : ∀ x, c.apply (members cs) x ↔ members cs x := by
    intro x
    rcases hc with ⟨ns, rfl, hn⟩ | ⟨ns, rfl, hn⟩
    · exact ⟨fun h => h.elim (fun h => h) (hn x), .inl⟩
    · exact ⟨fun h => h.1, fun h => ⟨h, fun h' => hn x h' h⟩⟩
  obtain ⟨ms, m1, m2, m3⟩ := h3.pts
  obtain ⟨ms', m1', m2', m3'⟩ := h6.pts
  refine ⟨hr, hr', h1, h4, ?_, ?_⟩
  · rw [hp, hp']
    rw [h5] at m3'
    exact m3'.trans ((perm_lists m1' m1 fun x => by rw [m2', m2, hm]).trans m3.symm)
  · intro x
    rw [Bool.eq_iff_iff, h6.raw, h3.raw, hm]

/-- **C65**: each member has exactly `replicas` points in the ring, every other node none. -/
theorem C65_count (r : Int) (cs : List (Call N)) (n : N) :
    ∃ hr, run e r cs = some hr ∧
      (members cs n → hr.pts.countP (fun p => decide (p.node = n)) = r.toNat) ∧
      (¬ members cs n → hr.pts.countP (fun p => decide (p.node = n)) = 0) := by
  obtain ⟨hr, ms, h1, nd, h2, _, h4, _⟩ := C65 (e := e) r cs
  have hc : ∀ ms : List N, ms.Nodup → (ms.flatMap (points e.hash r.toNat)).countP (fun p => decide (p.node = n)) =
      if n ∈ ms then r.toNat else 0 := by
    intro ms
    induction ms with
    | nil => intro _; rfl
    | cons a t ih =>
      intro hnd
      rw [List.nodup_cons] at hnd
      rw [List.flatMap_cons, List.countP_append, ih hnd.2]
      have : (points e.hash r.toNat a).countP (fun p => decide (p.node = n)) = if a = n then r.toNat else 0 := by
        unfold points
        rw [List.countP_map]
        by_cases ha : a = n
        · rw [if_pos ha]
          rw [List.countP_eq_length.2 (by intro x hx; simp [ha])]
          simp
        · rw [if_neg ha, List.countP_eq_zero]
          intro x hx; simp [ha]
      rw [this]
      by_cases ha : a = n
      · subst ha; simp [hnd.1]
      · simp [ha, Ne.symm ha]
  refine ⟨hr, h1, fun h => ?_, fun h => ?_⟩
  · rw [h4.countP_eq, hc ms nd, if_pos ((h2 n).2 h)]
  · rw [h4.countP_eq, hc ms nd, if_neg (fun h' => h ((h2 n).1 h'))]

end Verif.HashRing
