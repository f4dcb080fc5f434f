import Verif.Dllist.SliceAny
import Verif.Dllist.Sort
/-!
# `Sort`, whatever calls were made before (C192)

The states are those of C140 (`Any`): elements that `Clear` or `Sort` left behind may have been put back, so that `Len` is not the number of elements
and the front may be the sentinel, whose value Go has as the zero value `z`. `G m x ns` says that `ns` are exactly the elements of list `x`, in order,
and that its count is right.
-/
namespace Verif.Dllist.Push
open Verif.Dllist
variable {T : Type}

/-- The functions given to `Range` in dllist.go:264-271, 278-281, 285-288: the value is pushed to a list that depends on it. -/
def pushBody (z : T) (t : T → Nat) (m : Mem T) (_ : Unit) (e : Ptr) : Option (Mem T × Unit × Bool) := do
  let (m, _) ← pushBack m (t (valueZ z m e)) (valueZ z m e)
  some (m, (), true)

/-- `Sort(cmpLess)`: dllist.go:255-289, as in `Model.lean`, with the value of sentinels. -/
def sort (z : T) (less : T → T → Bool) : Nat → Mem T → Nat → Option (Mem T)
  | 0, _, _ => none
  | fuel + 1, m, l =>
    if m.len l ≤ 1 then some m
    else do
      let (m, f) := front m l
      let f ← f
      let pivot := valueZ z m f
      let (m, smaller) := new m
      let (m, larger) := new m
      let (m, f) := front m l
      let f ← f
      let (m, _, _) ← rangeLoop (pushBody z fun v => if less v pivot then smaller else larger) fuel m () (elNext m f)
      let m ← sort z less fuel m smaller
      let m ← sort z less fuel m larger
      let m := clear m l
      let (m, _, _) ← range (pushBody z fun _ => l) fuel m () smaller
      let (m, _) ← pushBack m l pivot
      let (m, _, _) ← range (pushBody z fun _ => l) fuel m () larger
      some m

/-- Changes of lists in `X` and of new ones only. -/
structure Ext (X : Nat → Prop) (m m' : Mem T) : Prop where
  fresh : m.fresh ≤ m'.fresh
  freshL : m.freshL ≤ m'.freshL
  val : ∀ n, n < m.fresh → m'.val n = m.val n
  inited : ∀ y, m.inited y = true → m'.inited y = true
  len : ∀ y, ¬ X y → y < m.freshL → m'.len y = m.len y
  owner : ∀ n, n < m.fresh → m'.owner (.node n) = m.owner (.node n)
  link : ∀ y p, ¬ X y → y < m.freshL → Mine m y p → m'.next p = m.next p ∧ m'.prev p = m.prev p

theorem Ext.refl (X : Nat → Prop) (m : Mem T) : Ext X m m :=
  ⟨Nat.le_refl _, Nat.le_refl _, fun _ _ => rfl, fun _ h => h, fun _ _ _ => rfl, fun _ _ => rfl, fun _ _ _ _ _ => ⟨rfl, rfl⟩⟩

theorem Ext.mine {X : Nat → Prop} {m m' : Mem T} (e : Ext X m m') (h : Sound m) {y : Nat} {p : Ptr} (hp : Mine m y p) : Mine m' y p := by
  rcases hp with rfl | hp
  · exact .inl rfl
  · cases p with
    | root k => rw [h.rootOwner] at hp; cases hp
    | node n => exact .inr (by rw [e.owner n (h.alloc _ _ hp)]; exact hp)

theorem Ext.trans {X : Nat → Prop} {m m' m'' : Mem T} (h : Sound m) (e : Ext X m m') (e' : Ext X m' m'') : Ext X m m'' where
  fresh := Nat.le_trans e.fresh e'.fresh
  freshL := Nat.le_trans e.freshL e'.freshL
  val n hn := by rw [e'.val n (Nat.lt_of_lt_of_le hn e.fresh), e.val n hn]
  inited y hy := e'.inited y (e.inited y hy)
  len y hx hy := by rw [e'.len y hx (Nat.lt_of_lt_of_le hy e.freshL), e.len y hx hy]
  owner n hn := by rw [e'.owner n (Nat.lt_of_lt_of_le hn e.fresh), e.owner n hn]
  link y p hx hy hp := by
    obtain ⟨a, b⟩ := e.link y p hx hy hp
    obtain ⟨c, d⟩ := e'.link y p hx (Nat.lt_of_lt_of_le hy e.freshL) (e.mine h hp)
    rw [c, d, a, b]; exact ⟨rfl, rfl⟩

theorem Ext.mono {X Y : Nat → Prop} {m m' : Mem T} (e : Ext X m m') (h : ∀ y, y < m.freshL → X y → Y y) : Ext Y m m' :=
  ⟨e.fresh, e.freshL, e.val, e.inited, fun y hy hl => e.len y (fun hx => hy (h y hl hx)) hl, e.owner, fun y p hy hl => e.link y p (fun hx => hy (h y hl hx)) hl⟩

/-- The elements `ns` are linked forward from `p` to `r`. -/
def Lk (nx : Ptr → Option Ptr) (r : Ptr) : Ptr → List Nat → Prop
  | p, [] => nx p = some r
  | p, n :: ns => nx p = some (.node n) ∧ Lk nx r (.node n) ns

/-- The last of `p` and `ns`. -/
def lastP : Ptr → List Nat → Ptr
  | p, [] => p
  | _, n :: ns => lastP (.node n) ns

/-- List `x` has exactly the elements `ns`, as `Front`, `Next`, `Len` and `PushBack` see it. -/
structure G (m : Mem T) (x : Nat) (ns : List Nat) : Prop where
  inited : m.inited x = true
  len : m.len x = ns.length
  own : ∀ n ∈ ns, m.owner (.node n) = some x
  nodup : ns.Nodup
  fw : Lk m.next (.root x) (.root x) ns
  last : m.prev (.root x) = some (lastP (.root x) ns)

theorem Lk.congr {nx nx' : Ptr → Option Ptr} {r : Ptr} : ∀ {ns : List Nat} {p : Ptr}, Lk nx r p ns → nx' p = nx p → (∀ n ∈ ns, nx' (.node n) = nx (.node n)) → Lk nx' r p ns
  | [], _, h, hp, _ => by simp only [Lk] at h ⊢; rw [hp]; exact h
  | n :: ns, _, h, hp, hn => by
    simp only [Lk] at h ⊢
    exact ⟨by rw [hp]; exact h.1, h.2.congr (hn n (by simp)) (fun k hk => hn k (by simp [hk]))⟩

theorem Ext.good {X : Nat → Prop} {m m' : Mem T} (e : Ext X m m') (h : Sound m) {y : Nat} {ns : List Nat} (hx : ¬ X y) (hy : y < m.freshL) (g : G m y ns) : G m' y ns := by
  refine ⟨e.inited y g.inited, by rw [e.len y hx hy, g.len], fun n hn => ?_, g.nodup, g.fw.congr (e.link y _ hx hy (.inl rfl)).1
    (fun n hn => (e.link y _ hx hy (.inr (g.own n hn))).1), by rw [(e.link y _ hx hy (.inl rfl)).2]; exact g.last⟩
  rw [e.owner n (h.alloc _ _ (g.own n hn))]; exact g.own n hn

theorem Lk.last {nx : Ptr → Option Ptr} {r : Ptr} : ∀ {ns : List Nat} {p : Ptr}, Lk nx r p ns → nx (lastP p ns) = some r
  | [], _, h => h
  | _ :: _, _, h => h.2.last

theorem lastP_append (n : Nat) : ∀ (ns : List Nat) (p : Ptr), lastP p (ns ++ [n]) = .node n
  | [], _ => rfl
  | _ :: ns, _ => lastP_append n ns _

theorem lastP_mem : ∀ (ns : List Nat) (p : Ptr), lastP p ns = p ∨ ∃ n ∈ ns, lastP p ns = .node n
  | [], _ => .inl rfl
  | n :: ns, _ => by
    rcases lastP_mem ns (.node n) with h | ⟨k, hk, h⟩
    · exact .inr ⟨n, by simp, h⟩
    · exact .inr ⟨k, by simp [hk], h⟩

theorem Lk.snoc {nx : Ptr → Option Ptr} {r : Ptr} {f : Nat} : ∀ {ns : List Nat} {p : Ptr}, Lk nx r p ns → ns.Nodup → (∀ n ∈ ns, Ptr.node n ≠ p) → f ∉ ns → p ≠ .node f →
    Lk (upd (upd nx (.node f) (some r)) (lastP p ns) (some (.node f))) r p (ns ++ [f])
  | [], p, h, _, _, _, hp => by
    simp only [Lk, List.nil_append, lastP, upd, if_true]
    simp [Ne.symm hp]
  | n :: ns, p, h, hn, hnp, hf, hp => by
    simp only [List.nodup_cons, List.mem_cons, not_or] at hn hf
    have hlast : p ≠ lastP (.node n) ns := by
      rcases lastP_mem ns (.node n) with e | ⟨k, hk, e⟩
      · rw [e]; exact (hnp n (by simp)).symm
      · rw [e]; exact (hnp k (by simp [hk])).symm
    simp only [Lk, List.cons_append, lastP]
    refine ⟨?_, h.2.snoc hn.2 (fun k hk hc => hn.1 (by injection hc with hc; rw [← hc]; exact hk)) hf.2 (fun hc => hf.1 (by injection hc with hc; exact hc.symm))⟩
    simp only [upd, if_neg hlast, if_neg hp]
    exact h.1

theorem insertValue_eq {m : Mem T} {l : Nat} (v : T) {a b : Ptr} (ha : a ≠ .node m.fresh) (hb : m.next a = some b) :
    insertValue m l v (some a) = some ({ m with
      next := upd (upd m.next (.node m.fresh) (some b)) a (some (.node m.fresh)), prev := upd (upd m.prev (.node m.fresh) (some a)) b (some (.node m.fresh)),
      owner := upd m.owner (.node m.fresh) (some l), val := upd m.val m.fresh (some v), len := upd m.len l (m.len l + 1), fresh := m.fresh + 1 }, m.fresh) := by
  have hne' : ¬ Ptr.node m.fresh = a := fun h => ha h.symm
  simp only [insertValue, Dllist.insert, Option.bind_eq_bind, Option.bind_some, Mem.setPrev, Mem.setNext, Mem.setOwner, Mem.setLen, upd, if_true, if_false, hne', hb]

theorem G.push {m : Mem T} (h : Sound m) {x : Nat} {ns : List Nat} (g : G m x ns) (v : T) :
    ∃ m1, pushBack m x v = some (m1, m.fresh) ∧ Sound m1 ∧ G m1 x (ns ++ [m.fresh]) ∧ Ext (· = x) m m1 ∧ m1.val m.fresh = some v ∧ m1.freshL = m.freshL := by
  have hma : Mine m x (lastP (.root x) ns) := by
    rcases lastP_mem ns (.root x) with e | ⟨k, hk, e⟩
    · exact .inl e
    · exact .inr (by rw [e]; exact g.own k hk)
  have hfn : ∀ n ∈ ns, n ≠ m.fresh := fun n hn hc => absurd (h.alloc _ _ (g.own n hn)) (by omega)
  have hfree : ∀ p, Mine m x p → p ≠ .node m.fresh := by
    rintro p hp rfl
    rcases hp with hp | hp
    · cases hp
    · exact absurd (h.alloc _ _ hp) (by omega)
  obtain ⟨m1, h1, hs1, hin, hown, hnew, hfr, hlen, hfresh, hval⟩ := insertValue_frame h g.inited v hma
  have heq := insertValue_eq (l := x) v (hfree _ hma) g.fw.last
  rw [h1] at heq
  have hm1 := (Prod.mk.inj (Option.some.inj heq)).1
  refine ⟨m1, ?_, hs1, ?_, ?_, ?_, ?_⟩
  · simp only [pushBack, lazyInit_of g.inited, g.last]; exact h1
  · refine ⟨by rw [hin]; exact g.inited, ?_, ?_, ?_, ?_, ?_⟩
    · rw [hlen]; simp [upd, g.len]
    · intro n hn
      rcases List.mem_append.1 hn with hn | hn
      · rw [hown _ (hfree _ (.inr (g.own n hn)))]; exact g.own n hn
      · simp only [List.mem_singleton] at hn; subst hn; exact hnew
    · rw [List.nodup_append]
      refine ⟨g.nodup, by simp, fun a ha b hb => ?_⟩
      simp only [List.mem_singleton] at hb; subst hb; exact hfn a ha
    · rw [hm1]
      exact g.fw.snoc g.nodup (by simp) (fun hc => hfn _ hc rfl) (by simp)
    · rw [hm1, lastP_append]
      simp [upd]
  · refine ⟨by omega, by rw [hm1], fun n hn => ?_, fun y hy => by rw [hin]; exact hy, fun y hy _ => by rw [hlen]; simp [upd, hy], fun n hn => ?_, fun y p hy _ hp => ?_⟩
    · rw [hval]; simp only [upd]; rw [if_neg (by omega)]
    · exact hown _ (by intro hc; injection hc with hc; omega)
    · refine hfr p (Mine.disj h hy hp) ?_
      rintro rfl
      rcases hp with hp | hp
      · cases hp
      · exact absurd (h.alloc _ _ hp) (by omega)
  · rw [hval]; simp [upd]
  · rw [hm1]

theorem clear_good {m : Mem T} (h : Sound m) (l : Nat) : G (clear m l) l [] ∧ Ext (· = l) m (clear m l) := by
  refine ⟨⟨?_, ?_, by simp, by simp, ?_, ?_⟩, ⟨Nat.le_refl _, Nat.le_refl _, fun _ _ => rfl, fun y hy => ?_, fun y hy _ => ?_, fun _ _ => rfl, fun y p hy _ hp => ?_⟩⟩
  · simp [clear, Mem.setInited, Mem.setLen, Mem.setPrev, Mem.setNext, upd]
  · simp [clear, Mem.setInited, Mem.setLen, Mem.setPrev, Mem.setNext, upd]
  · simp [Lk, clear, Mem.setInited, Mem.setLen, Mem.setPrev, Mem.setNext, upd]
  · simp [lastP, clear, Mem.setInited, Mem.setLen, Mem.setPrev, Mem.setNext, upd]
  · simp [clear, Mem.setInited, Mem.setLen, Mem.setPrev, Mem.setNext, upd, hy]
  · simp [clear, Mem.setInited, Mem.setLen, Mem.setPrev, Mem.setNext, upd, hy]
  · have hpl : ¬ p = .root l := by
      rintro rfl
      rcases hp with hp | hp
      · injection hp with hp; exact hy hp.symm
      · rw [h.rootOwner] at hp; cases hp
    simp [clear, Mem.setInited, Mem.setLen, Mem.setPrev, Mem.setNext, upd, hpl]

theorem new_good {m : Mem T} (h : Sound m) : (new m).2 = m.freshL ∧ Sound (new m).1 ∧ G (new m).1 m.freshL [] ∧ Ext (fun _ => False) m (new m).1 ∧ (new m).1.freshL = m.freshL + 1 := by
  have hz : Sound (zeroList m).1 := ⟨h.lk, h.rootOwner, h.ini, h.alloc, h.idle, h.zero⟩
  obtain ⟨g, e⟩ := clear_good hz m.freshL
  refine ⟨rfl, hz.clear _, g, ⟨e.fresh, by show m.freshL ≤ m.freshL + 1; omega, e.val, e.inited, fun y _ hy => ?_, e.owner, fun y p _ hy hp => ?_⟩, rfl⟩
  · exact e.len y (by omega) (by show y < m.freshL + 1; omega)
  · exact e.link y p (by omega) (by show y < m.freshL + 1; omega) hp

/-- The values of elements. -/
def vals (z : T) (m : Mem T) (ns : List Nat) : List T := ns.map fun n => valueZ z m (.node n)

/-- The pointers from `e` on. -/
def Path (f : Ptr → Option Ptr) : Option Ptr → List Ptr → Prop
  | none, [] => True
  | some p, q :: ps => p = q ∧ Path f (f p) ps
  | _, _ => False

theorem Path.congr {f g : Ptr → Option Ptr} : ∀ {e : Option Ptr} {ps : List Ptr}, Path f e ps → (∀ p ∈ ps, g p = f p) → Path g e ps
  | none, [], _, _ => trivial
  | some p, q :: ps, h, hp => by
    obtain ⟨rfl, h⟩ := h
    exact ⟨rfl, by rw [hp p (by simp)]; exact h.congr (fun r hr => hp r (by simp [hr]))⟩
  | none, _ :: _, h, _ => h.elim
  | some _, [], h, _ => h.elim

theorem Ext.elNext {X : Nat → Prop} {m m' : Mem T} (e : Ext X m m') (h : Sound m) (h' : Sound m') {o : Nat} (ho : ¬ X o) (hl : o < m.freshL) {p : Ptr} (hp : Mine m o p) :
    elNext m' p = elNext m p := by
  have hn := (e.link o p ho hl hp).1
  have : m'.owner p = m.owner p := by
    cases p with
    | root k => rw [h.rootOwner, h'.rootOwner]
    | node n =>
      rcases hp with hp | hp
      · cases hp
      · exact e.owner n (h.alloc _ _ hp)
  simp only [Dllist.elNext, hn, this]

theorem Ext.valueZ {X : Nat → Prop} {m m' : Mem T} (e : Ext X m m') (h : Sound m) (z : T) {o : Nat} {p : Ptr} (hp : Mine m o p) : valueZ z m' p = valueZ z m p := by
  cases p with
  | root k => rfl
  | node n =>
    rcases hp with hp | hp
    · cases hp
    · simp only [Push.valueZ, e.val n (h.alloc _ _ hp)]

theorem Ext.vals {X : Nat → Prop} {m m' : Mem T} (e : Ext X m m') (h : Sound m) (z : T) {x : Nat} {ns : List Nat} (g : ∀ n ∈ ns, m.owner (.node n) = some x) :
    vals z m' ns = vals z m ns := List.map_congr_left fun n hn => e.valueZ h z (.inr (g n hn))

theorem push_run (z : T) (t : T → Nat) {X : Nat → Prop} {o : Nat} (hX : ∀ v, X (t v)) (ho : ¬ X o) : ∀ (ps : List Ptr) (m : Mem T) (e : Option Ptr) (S : Nat → List Nat),
    Sound m → Path (elNext m) e ps → (∀ p ∈ ps, Mine m o p) → o < m.freshL → (∀ x, X x → x < m.freshL) → (∀ x, X x → G m x (S x)) →
    ∃ (m' : Mem T) (S' : Nat → List Nat), (∀ fuel, ps.length < fuel → rangeLoop (pushBody z t) fuel m () e = some (m', (), true)) ∧ Sound m' ∧ (∀ x, X x → G m' x (S' x)) ∧ Ext X m m' ∧
      (∀ x, X x → vals z m' (S' x) = vals z m (S x) ++ (ps.map (valueZ z m)).filter (fun v => decide (t v = x))) ∧ m'.freshL = m.freshL
  | [], m, e, S, h, hp, _, _, _, hg => by
    cases e with
    | some _ => exact hp.elim
    | none =>
      refine ⟨m, S, fun fuel hf => ?_, h, hg, .refl _ _, by simp, rfl⟩
      obtain ⟨k, rfl⟩ : ∃ k, fuel = k + 1 := ⟨fuel - 1, by omega⟩
      rfl
  | p :: ps, m, none, S, _, hp, _, _, _, _ => hp.elim
  | p :: ps, m, some q, S, h, hp, hm, hol, hxl, hg => by
    obtain ⟨rfl, hp⟩ := hp
    have hx0 := hX (valueZ z m q)
    obtain ⟨m1, h1, hs1, hg1, he1, hv1, hfl⟩ := (hg _ hx0).push h (valueZ z m q)
    have he1' : Ext X m m1 := he1.mono (fun y _ hy => by rw [hy]; exact hx0)
    let S1 : Nat → List Nat := fun x => if x = t (valueZ z m q) then S x ++ [m.fresh] else S x
    have hgs : ∀ x, X x → G m1 x (S1 x) := by
      intro x hx
      by_cases hxx : x = t (valueZ z m q)
      · simp only [S1, if_pos hxx]; rw [hxx]; exact hg1
      · simp only [S1, if_neg hxx]; exact he1.good h hxx (hxl x hx) (hg x hx)
    have hpath : Path (elNext m1) (elNext m1 q) ps := by
      rw [he1'.elNext h hs1 ho hol (hm q (by simp))]
      exact hp.congr (fun r hr => he1'.elNext h hs1 ho hol (hm r (by simp [hr])))
    obtain ⟨m', S', hr, hs', hg', he', hv', hfl'⟩ := push_run z t hX ho ps m1 (elNext m1 q) S1 hs1 hpath (fun r hr => he1'.mine h (hm r (by simp [hr])))
      (by rw [hfl]; exact hol) (fun x hx => by rw [hfl]; exact hxl x hx) hgs
    refine ⟨m', S', fun fuel hf => ?_, hs', hg', he1'.trans h he', fun x hx => ?_, by rw [hfl', hfl]⟩
    · obtain ⟨k, rfl⟩ : ∃ k, fuel = k + 1 := ⟨fuel - 1, by omega⟩
      simp only [rangeLoop, pushBody, h1, Option.bind_eq_bind, Option.bind_some, if_true]
      exact hr k (by simp at hf; omega)
    · rw [hv' x hx]
      have e1 : ps.map (valueZ z m1) = ps.map (valueZ z m) := List.map_congr_left fun r hr => he1'.valueZ h z (hm r (by simp [hr]))
      rw [e1]
      have e2 := he1'.vals h z (hg x hx).own
      by_cases hxx : x = t (valueZ z m q)
      · simp only [S1, if_pos hxx, List.map_cons]
        rw [List.filter_cons_of_pos (by simp [hxx])]
        have : vals z m1 (S x ++ [m.fresh]) = vals z m1 (S x) ++ [valueZ z m q] := by
          simp only [vals, List.map_append, List.map_cons, List.map_nil]
          congr 2
          simp [valueZ, hv1]
        rw [this, e2]; simp
      · simp only [S1, if_neg hxx, List.map_cons]
        rw [List.filter_cons_of_neg (by simp; exact fun h => hxx h.symm), e2]

theorem Lk.path {m : Mem T} {x : Nat} : ∀ {ns : List Nat} {n : Nat}, Lk m.next (.root x) (.node n) ns → (∀ k ∈ n :: ns, m.owner (.node k) = some x) →
    Path (elNext m) (some (.node n)) ((n :: ns).map .node)
  | [], n, h, ho => by
    simp only [Lk] at h
    refine ⟨rfl, ?_⟩
    simp [elNext, ho n (by simp), h, Path]
  | k :: ns, n, h, ho => by
    simp only [Lk] at h
    refine ⟨rfl, ?_⟩
    have : elNext m (.node n) = some (.node k) := by simp [elNext, ho n (by simp), h.1]
    rw [this]
    exact h.2.path (fun j hj => ho j (by simp only [List.mem_cons] at hj ⊢; exact .inr hj))

theorem G.front {m : Mem T} {x : Nat} {ns : List Nat} (g : G m x ns) : (front m x).1 = m ∧ Path (elNext m) (front m x).2 (ns.map .node) := by
  cases ns with
  | nil =>
    have : m.len x = 0 := g.len
    simp only [Dllist.front, this, if_true]
    exact ⟨trivial, trivial⟩
  | cons n ns =>
    have : ¬ m.len x = 0 := by rw [g.len]; simp; omega
    have hf := g.fw
    simp only [Lk] at hf
    simp only [Dllist.front, this, if_false, lazyInit_of g.inited, hf.1]
    exact ⟨trivial, hf.2.path g.own⟩

/-- The same values, and sorted if `less` is a strict weak order. -/
def Sorts (less : T → T → Bool) (vs vs' : List T) : Prop := vs'.Perm vs ∧ (StrictWeak less → Spec.StableSorted less vs vs')

/-- `Sort` of list `x` returns; the list has exactly the values `vs` then, sorted, and other lists are as before. -/
def SortRes (z : T) (less : T → T → Bool) (m : Mem T) (x : Nat) (vs : List T) : Prop :=
  ∃ m' ns', (∀ fuel, vs.length < fuel → sort z less fuel m x = some m') ∧ Sound m' ∧ G m' x ns' ∧ Ext (· = x) m m' ∧ Sorts less vs (vals z m' ns')

theorem short {z : T} {less : T → T → Bool} {m : Mem T} (h : Sound m) {x : Nat} {ns : List Nat} (g : G m x ns) (hs : ns.length ≤ 1) : SortRes z less m x (vals z m ns) := by
  refine ⟨m, ns, fun fuel hf => ?_, h, g, .refl _ _, .refl _, fun _ => ⟨?_, fun _ => rfl⟩⟩
  · obtain ⟨j, rfl⟩ : ∃ j, fuel = j + 1 := ⟨fuel - 1, by omega⟩
    have : m.len x ≤ 1 := by rw [g.len]; omega
    simp only [sort, this, if_true]
  · match ns, hs with
    | [], _ => exact List.Pairwise.nil
    | [a], _ => simp [vals]

theorem _root_.Verif.Dllist.Trip.path {m : Mem T} (h : Sound m) {o : Nat} {p : Ptr} {ps : List Ptr} (ht : Trip (elNext m) p ps) (hp : Mine m o p) :
    ∃ rest, ps = p :: rest ∧ Path (elNext m) (elNext m p) rest ∧ ∀ q ∈ rest, Mine m o q := by
  induction ht with
  | last hs => exact ⟨[], rfl, by rw [hs]; trivial, by simp⟩
  | next hs _ ih =>
    have hq := step_mine h (fwd := true) hp hs
    obtain ⟨rest, rfl, h1, h2⟩ := ih hq
    refine ⟨_, rfl, by rw [hs]; exact ⟨rfl, h1⟩, fun r hr => ?_⟩
    rcases List.mem_cons.1 hr with rfl | hr
    · exact hq
    · exact h2 r hr

theorem core (z : T) (less : T → T → Bool) {k : Nat} (ih : ∀ (m : Mem T) (x : Nat) (ns : List Nat), Sound m → x < m.freshL → G m x ns → ns.length ≤ k → SortRes z less m x (vals z m ns))
    {m : Mem T} (h : Sound m) {l : Nat} (hl : l < m.freshL) (hi : m.inited l = true) (hlen : 1 < m.len l) {f : Ptr} (hf : m.next (.root l) = some f) (hmf : Mine m l f)
    {rest : List Ptr} (hp : Path (elNext m) (elNext m f) rest) (hm : ∀ p ∈ rest, Mine m l p) (hk : rest.length ≤ k) :
    SortRes z less m l ((f :: rest).map (valueZ z m)) := by
  have hfront : front m l = (m, some f) := by
    simp only [Dllist.front, show ¬ m.len l = 0 by omega, if_false, lazyInit_of hi, hf]
  obtain ⟨e1, s1, g1, x1, f1⟩ := new_good h
  obtain ⟨e2, s2, g2, x2, f2⟩ := new_good s1
  have x12 := x1.trans h x2
  have hfront2 : front (new (new m).1).1 l = ((new (new m).1).1, some f) := by
    simp only [Dllist.front, x12.len l (by simp) hl, show ¬ m.len l = 0 by omega, if_false, lazyInit_of (x12.inited l hi), (x12.link l _ (by simp) hl (.inl rfl)).1, hf]
  generalize hm1 : (new m).1 = m1 at *
  generalize hm2 : (new m1).1 = m2 at *
  have hp2 : Path (elNext m2) (elNext m2 f) rest := by
    rw [x12.elNext h s2 (by simp) hl hmf]
    exact hp.congr (fun r hr => x12.elNext h s2 (by simp) hl (hm r hr))
  have hmr2 : ∀ p ∈ rest, Mine m2 l p := fun p hp => x12.mine h (hm p hp)
  have hg1 : G m2 m.freshL [] := x2.good s1 (by simp) (by omega) g1
  rw [f1] at g2 e2 f2
  obtain ⟨m3, S3, r3, s3, g3, x3, v3, f3⟩ := push_run z (fun v => if less v (valueZ z m f) then m.freshL else m.freshL + 1) (X := fun y => y = m.freshL ∨ y = m.freshL + 1)
    (o := l) (fun v => by split <;> simp) (by omega) rest m2 _ (fun _ => []) s2 hp2 hmr2 (by omega) (by rintro x (rfl | rfl) <;> omega)
    (by rintro x (rfl | rfl); exact hg1; exact g2)
  have hvr : rest.map (valueZ z m2) = rest.map (valueZ z m) := List.map_congr_left fun r hr => x12.valueZ h z (hm r hr)
  have va := v3 m.freshL (.inl rfl)
  have vb := v3 (m.freshL + 1) (.inr rfl)
  have ta : (fun v => decide ((if less v (valueZ z m f) = true then m.freshL else m.freshL + 1) = m.freshL)) = fun v => less v (valueZ z m f) := by
    funext v; cases less v (valueZ z m f) <;> simp
  have tb : (fun v => decide ((if less v (valueZ z m f) = true then m.freshL else m.freshL + 1) = m.freshL + 1)) = fun v => !less v (valueZ z m f) := by
    funext v; cases less v (valueZ z m f) <;> simp
  rw [hvr, ta] at va
  rw [hvr, tb] at vb
  simp only [vals, List.map_nil, List.nil_append] at va vb
  have la : (S3 m.freshL).length ≤ rest.length := by
    have := congrArg List.length va
    rw [List.length_map] at this
    rw [this]; exact Nat.le_trans (List.length_filter_le _ _) (by simp)
  have lb : (S3 (m.freshL + 1)).length ≤ rest.length := by
    have := congrArg List.length vb
    rw [List.length_map] at this
    rw [this]; exact Nat.le_trans (List.length_filter_le _ _) (by simp)
  obtain ⟨m4, na, r4, s4, g4, x4, p4⟩ := ih m3 m.freshL _ s3 (by omega) (g3 _ (.inl rfl)) (by omega)
  obtain ⟨m5, nb, r5, s5, g5, x5, p5⟩ := ih m4 (m.freshL + 1) _ s4 (by have := x4.freshL; omega) (x4.good s3 (by omega) (by omega) (g3 _ (.inr rfl))) (by omega)
  have hla : (vals z m3 (S3 m.freshL)).length = (S3 m.freshL).length := by simp [vals]
  have hlb : (vals z m4 (S3 (m.freshL + 1))).length = (S3 (m.freshL + 1)).length := by simp [vals]
  rw [x4.vals s3 z (g3 _ (.inr rfl)).own] at p5
  rw [show vals z m3 (S3 m.freshL) = _ from va] at p4
  rw [show vals z m3 (S3 (m.freshL + 1)) = _ from vb] at p5
  have fl5 : m.freshL + 2 ≤ m5.freshL := by have := x4.freshL; have := x5.freshL; omega
  have g4' := x5.good s4 (show ¬ m.freshL = m.freshL + 1 by omega) (by have := x4.freshL; omega) g4
  have va4 := x5.vals s4 z g4.own
  obtain ⟨g6, x6⟩ := clear_good s5 l
  have s6 := s5.clear l
  have g6a := x6.good s5 (show ¬ m.freshL = l by omega) (by omega) g4'
  have g6b := x6.good s5 (show ¬ m.freshL + 1 = l by omega) (by omega) g5
  have va6 := x6.vals s5 z g4'.own
  have vb6 := x6.vals s5 z g5.own
  have fl6 : (clear m5 l).freshL = m5.freshL := rfl
  generalize hm6 : clear m5 l = m6 at *
  obtain ⟨fa1, fa2⟩ := g6a.front
  obtain ⟨m7, S7, r7, s7, g7, x7, v7, f7⟩ := push_run z (fun _ => l) (X := (· = l)) (o := m.freshL) (fun _ => rfl) (by omega) (na.map .node) m6 _ (fun _ => []) s6 fa2
    (by intro p hp; obtain ⟨n, hn, rfl⟩ := List.mem_map.1 hp; exact .inr (g6a.own n hn)) (by omega) (by rintro x rfl; omega) (by rintro x rfl; exact g6)
  obtain ⟨m8, r8, s8, g8, x8, v8, f8⟩ := (g7 l rfl).push s7 (valueZ z m f)
  have g8b := x8.good s7 (show ¬ m.freshL + 1 = l by omega) (by omega) (x7.good s6 (show ¬ m.freshL + 1 = l by omega) (by omega) g6b)
  obtain ⟨fb1, fb2⟩ := g8b.front
  obtain ⟨m9, S9, r9, s9, g9, x9, v9, f9⟩ := push_run z (fun _ => l) (X := (· = l)) (o := m.freshL + 1) (fun _ => rfl) (by omega) (nb.map .node) m8 _ (fun _ => S7 l ++ [m7.fresh]) s8 fb2
    (by intro p hp; obtain ⟨n, hn, rfl⟩ := List.mem_map.1 hp; exact .inr (g8b.own n hn)) (by omega) (by rintro x rfl; omega) (by rintro x rfl; exact g8)
  have hA : vals z m7 (S7 l) = vals z m4 na := by
    have := v7 l rfl
    simp only [decide_true, List.filter_true] at this
    rw [this, ← va4, ← va6]
    simp [vals]
  have hB : (nb.map .node).map (valueZ z m8) = vals z m5 nb := by
    have b7 := x7.vals s6 z g6b.own
    have b8 := x8.vals s7 z (x7.good s6 (show ¬ m.freshL + 1 = l by omega) (by omega) g6b).own
    rw [← vb6, ← b7, ← b8]
    simp [vals]
  have hall : vals z m9 (S9 l) = vals z m4 na ++ valueZ z m f :: vals z m5 nb := by
    have := v9 l rfl
    simp only [decide_true, List.filter_true, hB] at this
    rw [this]
    have e8 : vals z m8 (S7 l ++ [m7.fresh]) = vals z m8 (S7 l) ++ [valueZ z m f] := by
      simp only [vals, List.map_append, List.map_cons, List.map_nil]
      congr 2
      simp [valueZ, v8]
    rw [e8, x8.vals s7 z (g7 l rfl).own, hA]
    simp
  have ln : na.length ≤ rest.length := by
    have := p4.1.length_eq
    simp only [vals, List.length_map] at this
    rw [this]; exact Nat.le_trans (List.length_filter_le _ _) (by simp)
  have lm : nb.length ≤ rest.length := by
    have := p5.1.length_eq
    simp only [vals, List.length_map] at this
    rw [this]; exact Nat.le_trans (List.length_filter_le _ _) (by simp)
  have hn1 : new m = (m1, m.freshL) := Prod.ext hm1 e1
  have hn2 : new m1 = (m2, m.freshL + 1) := Prod.ext hm2 e2
  have q6 : front m6 m.freshL = (m6, (front m6 m.freshL).2) := Prod.ext fa1 rfl
  have q8 : front m8 (m.freshL + 1) = (m8, (front m8 (m.freshL + 1)).2) := Prod.ext fb1 rfl
  refine ⟨m9, S9 l, fun fuel hfu => ?_, s9, g9 l rfl, ?_, ?_, ?_⟩
  · obtain ⟨j, rfl⟩ : ∃ j, fuel = j + 1 := ⟨fuel - 1, by omega⟩
    simp only [List.length_map, List.length_cons] at hfu
    have c7 := r7 j (by simp; omega)
    have c9 := r9 j (by simp; omega)
    simp only [sort, show ¬ m.len l ≤ 1 by omega, if_false, hfront, Option.bind_eq_bind, Option.bind_some, hn1, hn2, hfront2, r3 j (by omega), r4 j (by omega), r5 j (by omega), hm6,
      range, fa1, c7, r8, fb1, c9]
  · have i0 : Ext (fun y => y = l ∨ m.freshL ≤ y) m m2 := x12.mono (fun _ _ h => h.elim)
    have i3 := i0.trans h (x3.mono (fun y _ hy => by omega))
    have i4 := i3.trans h (x4.mono (fun y _ hy => by omega))
    have i5 := i4.trans h (x5.mono (fun y _ hy => by omega))
    have i6 := i5.trans h (x6.mono (fun y _ hy => by omega))
    have i7 := i6.trans h (x7.mono (fun y _ hy => by omega))
    have i8 := i7.trans h (x8.mono (fun y _ hy => by omega))
    have i9 := i8.trans h (x9.mono (fun y _ hy => by omega))
    exact i9.mono (fun y hy hx => by omega)
  · rw [hall]
    refine List.perm_middle.trans (List.Perm.cons _ ?_)
    exact (p4.1.append p5.1).trans (List.filter_append_perm _ _)
  · intro hw
    rw [hall]
    exact sorted_join hw (p4.2 hw) p4.1 (p5.2 hw) p5.1

theorem sort_good (z : T) (less : T → T → Bool) : ∀ (k : Nat) (m : Mem T) (x : Nat) (ns : List Nat), Sound m → x < m.freshL → G m x ns → ns.length ≤ k →
    SortRes z less m x (vals z m ns) := by
  intro k
  induction k with
  | zero =>
    intro m x ns h hx g hk
    exact short h g (by omega)
  | succ k ih =>
    intro m x ns h hx g hk
    by_cases hs : ns.length ≤ 1
    · exact short h g hs
    · cases ns with
      | nil => simp at hs
      | cons n ns =>
        have hf := g.fw
        simp only [Lk] at hf
        have hpath := hf.2.path g.own
        have := core z less ih h hx g.inited (by rw [g.len]; exact_mod_cast Nat.lt_of_not_le hs) hf.1 (.inr (g.own n (by simp))) (rest := ns.map .node) hpath.2
          (by intro p hp; obtain ⟨j, hj, rfl⟩ := List.mem_map.1 hp; exact .inr (g.own j (by simp [hj]))) (by simp at hk ⊢; omega)
        simpa [vals, Function.comp_def] using this

theorem rangeLoop_mono {A : Type} {b b' : Mem T → A → Ptr → Option (Mem T × A × Bool)} (hb : ∀ m a e r, b m a e = some r → b' m a e = some r) :
    ∀ (fuel : Nat) (m : Mem T) (a : A) (e : Option Ptr) (r : Mem T × A × Bool), rangeLoop b fuel m a e = some r → rangeLoop b' fuel m a e = some r
  | 0, _, _, _, _, h => by cases h
  | _ + 1, _, _, none, _, h => h
  | fuel + 1, m, a, some e, r, h => by
    simp only [rangeLoop, Option.bind_eq_bind, Option.bind_eq_some_iff] at h ⊢
    obtain ⟨⟨m1, a1, c⟩, h1, h2⟩ := h
    refine ⟨_, hb _ _ _ _ h1, ?_⟩
    simp only at h2 ⊢
    cases c with
    | true => exact rangeLoop_mono hb fuel _ _ _ _ h2
    | false => exact h2

theorem copy_mono (z : T) (l : Nat) (m : Mem T) (a : Unit) (e : Ptr) (r : Mem T × Unit × Bool)
    (h : (do let v ← value m e; let (m, _) ← pushBack m l v; some (m, (), true)) = some r) : pushBody z (fun _ => l) m a e = some r := by
  simp only [Option.bind_eq_bind, Option.bind_eq_some_iff] at h
  obtain ⟨v, hv, q, h1, h2⟩ := h
  simp only [pushBody, valueZ_of hv, Option.bind_eq_bind, Option.bind_eq_some_iff]
  exact ⟨q, h1, h2⟩

/-- **C192**: where the `Sort` of `Model.lean` returns, this one does the same. -/
theorem C192_model (z : T) (less : T → T → Bool) : ∀ {fuel : Nat} {m m' : Mem T} {l : Nat}, Dllist.sort less fuel m l = some m' → sort z less fuel m l = some m'
  | 0, _, _, _, h => by cases h
  | fuel + 1, m, m', l, h => by
    simp only [Dllist.sort] at h
    simp only [sort]
    split at h
    next hl => rw [if_pos hl]; exact h
    next hl =>
      rw [if_neg hl]
      simp only [Option.bind_eq_bind, Option.bind_eq_some_iff] at h ⊢
      obtain ⟨f, h1, pv, h2, f2, h3, ⟨m3, _, _⟩, h4, m4, h5, m5, h6, ⟨m7, _, _⟩, h7, ⟨m8, _⟩, h8, ⟨m9, _, _⟩, h9, h10⟩ := h
      refine ⟨f, h1, f2, h3, ⟨m3, _, _⟩, ?_, m4, C192_model z less h5, m5, C192_model z less h6, ⟨m7, _, _⟩, rangeLoop_mono (copy_mono z l) _ _ _ _ _ h7, ⟨m8, _⟩,
        by rw [valueZ_of h2]; exact h8, ⟨m9, _, _⟩, rangeLoop_mono (copy_mono z l) _ _ _ _ _ h9, h10⟩
      refine rangeLoop_mono ?_ _ _ _ _ _ h4
      intro m a e r hr
      simp only [Option.bind_eq_some_iff] at hr
      obtain ⟨v, hv, hr⟩ := hr
      simp only [pushBody, valueZ_of hv, valueZ_of h2, Option.bind_eq_bind, Option.bind_eq_some_iff]
      split at hr
      next hc => rw [if_pos hc]; simpa [Option.bind_eq_some_iff] using hr
      next hc => rw [if_neg hc]; simpa [Option.bind_eq_some_iff] using hr

/-- **C192**: `Sort` of a list on which any calls were made before: with `Len` at most 1 it does nothing; otherwise it comes back, and the list has
exactly the values that were reached from `Front` by `Next`, sorted stably if the function is a strict weak order; `Len` is their number. -/
theorem C192_sort (z : T) (less : T → T → Bool) {m : Mem T} (h : Any m) {l : Nat} (hl : l < m.freshL) (hi : m.inited l = true) :
    (m.len l ≤ 1 → ∀ fuel, 0 < fuel → sort z less fuel m l = some m) ∧
    (1 < m.len l → ∃ ps, Walk m l ps ∧ ps.Nodup ∧ SortRes z less m l (ps.map (valueZ z m))) := by
  constructor
  · intro h1 fuel hf
    obtain ⟨j, rfl⟩ : ∃ j, fuel = j + 1 := ⟨fuel - 1, by omega⟩
    simp only [sort, h1, if_true]
  · intro h1
    have hs := h.sound
    obtain ⟨rank, hk⟩ := hs.lk l hi
    obtain ⟨f, hmf, hf, _⟩ := hk.fw _ hk.root
    have hfront : front m l = (m, some f) := by
      simp only [Dllist.front, show ¬ m.len l = 0 by omega, if_false, lazyInit_of hi, hf]
    obtain ⟨ps, ht, hn⟩ := hs.tripNext f
    obtain ⟨rest, rfl, hp, hm⟩ := ht.path hs hmf
    refine ⟨f :: rest, .trip (by rw [hfront]) (by rw [hfront]; exact ht), hn, ?_⟩
    exact core z less (sort_good z less rest.length) hs hl hi h1 hf hmf hp hm (Nat.le_refl _)

/-- List 0 with element 1, which `Clear` left behind, before 4 and 3: it counts two elements, and its `Front` is the sentinel. -/
def sample2 : Option (Mem Nat) := do
  let m ← sample
  let (m, _) ← exec 0 m (.insertAfter 0 3 2)
  pure m

example : (sample2.map fun m => (m.len 0, (front m 0).2)) = some (2, some (.root 0)) := rfl
/-- It is left with the zero value, 77 here. -/
example : (sample2.bind fun m => (sort 77 (fun a b => decide (a < b)) 5 m 0).map fun m => (m.len 0, (slice 77 5 m 0).map fun r => r.map (·.2))) =
    some (1, some (some [77])) := rfl

/-- List 0 with 4 only, and a count of 2: element 0, which `Clear` left behind, was linked to the sentinel when it was removed, and with that 5 and 2
were cut off. -/
def sample3 : Option (Mem Nat) := do
  let (m, _) ← exec 0 Mem.empty .new
  let (m, _) ← exec 0 m (.pushBack 0 1)
  let (m, _) ← exec 0 m (.clear 0)
  let (m, _) ← exec 0 m (.pushBack 0 5)
  let (m, _) ← exec 0 m (.pushBack 0 2)
  let (m, _) ← exec 0 m (.remove 0 0)
  let (m, _) ← exec 0 m (.pushBack 0 4)
  pure m

/-- `Sort` makes the count right. -/
example : (sample3.bind fun m => (sort 0 (fun a b => decide (a < b)) 5 m 0).map fun m' => (m.len 0, (slice 0 9 m 0).map fun r => r.map (·.2), m'.len 0, (slice 0 9 m' 0).map fun r => r.map (·.2))) =
    some (2, some (some [4]), 1, some (some [4])) := rfl

example : ((do
    let (m, _) ← exec 0 Mem.empty .new
    let (m, _) ← exec 0 m (.pushBack 0 5)
    let (m, _) ← exec 0 m (.pushBack 0 2)
    let (m, _) ← exec 0 m (.pushBack 0 4)
    let m ← sort 0 (fun a b => decide (a < b)) 5 m 0
    (slice 0 9 m 0).map fun r => r.map (·.2)) : Option (Option (List Nat))) = some (some [2, 4, 5]) := rfl

end Verif.Dllist.Push
