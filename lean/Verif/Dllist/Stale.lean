import Verif.Dllist.SortE
/-!
# Elements left behind by `Clear` and `Sort`, used again

`Clear` and `Sort` leave the old elements with their links and their owner (C35). Whatever is done with such elements later, the links of a
list stay what they are here: chains from the sentinel to the sentinel, of which the sentinel knows the first element of one and the last element of one.
-/
namespace Verif.Dllist
set_option linter.unusedSimpArgs false
open Spec (Op Res St Client SRun Safe valsOf)
variable {T A : Type} {m m' m'' : Mem T}

/-! ## Chains -/

/-- The addresses `D`, linked in chains from `r` to `r`.  `rank` gets smaller along a chain. -/
structure Lks (nx pv : Ptr → Option Ptr) (D : Ptr → Prop) (r : Ptr) (rank : Ptr → Nat) : Prop where
  root : D r
  fw : ∀ p, D p → ∃ q, D q ∧ nx p = some q ∧ (q = r ∨ pv q = some p ∧ (p = r ∨ rank q < rank p))
  bw : ∀ p, D p → ∃ q, D q ∧ pv p = some q ∧ (q = r ∨ nx q = some p)

section
variable {nx pv nx' pv' : Ptr → Option Ptr} {D D' : Ptr → Prop} {r : Ptr} {rank : Ptr → Nat}

theorem Lks.congr (h : Lks nx pv D r rank) (h1 : ∀ p, D p → nx' p = nx p) (h2 : ∀ p, D p → pv' p = pv p) (hD : ∀ p, D' p ↔ D p) : Lks nx' pv' D' r rank := by
  refine ⟨(hD r).2 h.root, fun p hp => ?_, fun p hp => ?_⟩
  · obtain ⟨q, a, b, c⟩ := h.fw p ((hD p).1 hp)
    exact ⟨q, (hD q).2 a, by rw [h1 p ((hD p).1 hp), b], by rw [h2 q a]; exact c⟩
  · obtain ⟨q, a, b, c⟩ := h.bw p ((hD p).1 hp)
    exact ⟨q, (hD q).2 a, by rw [h2 p ((hD p).1 hp), b], by rw [h1 q a]; exact c⟩

/-- An element is not its own neighbour. -/
theorem Lks.ne (h : Lks nx pv D r rank) {e q : Ptr} (he : D e) (her : e ≠ r) : (nx e = some q → q ≠ e) ∧ (pv e = some q → q ≠ e) := by
  have key : nx e ≠ some e := by
    intro hc
    obtain ⟨q, _, b, c⟩ := h.fw e he
    rw [hc] at b
    cases b
    rcases c with c | ⟨_, c | c⟩
    · exact her c
    · exact her c
    · exact Nat.lt_irrefl _ c
  refine ⟨?_, ?_⟩
  · rintro hq rfl; exact key hq
  · rintro hq rfl
    obtain ⟨q', _, b, c⟩ := h.bw q he
    rw [hq] at b
    cases b
    rcases c with c | c
    · exact her c
    · exact key c

/-- Taking an element out. -/
theorem Lks.unlink (h : Lks nx pv D r rank) {e p q : Ptr} (he : D e) (her : e ≠ r) (hp : pv e = some p) (hq : nx e = some q) :
    D p ∧ D q ∧ p ≠ e ∧ q ≠ e ∧ Lks (upd nx p (some q)) (upd pv q (some p)) (fun x => D x ∧ x ≠ e) r rank := by
  obtain ⟨p', dp, ep, cp⟩ := h.bw e he
  obtain ⟨q', dq, eq, cq⟩ := h.fw e he
  rw [hp] at ep; cases ep
  rw [hq] at eq; cases eq
  have pe := (h.ne (q := p) he her).2 hp
  have qe := (h.ne (q := q) he her).1 hq
  refine ⟨dp, dq, pe, qe, ⟨h.root, fun h => her h.symm⟩, ?_, ?_⟩
  · rintro x ⟨hx, hxe⟩
    by_cases hxp : x = p
    · subst hxp
      refine ⟨q, ⟨dq, qe⟩, by simp [upd], ?_⟩
      by_cases hqr : q = r
      · exact .inl hqr
      refine .inr ⟨by simp [upd], ?_⟩
      by_cases hxr : x = r
      · exact .inl hxr
      refine .inr ?_
      have hne := cp.resolve_left hxr
      obtain ⟨e', _, b, c⟩ := h.fw x hx
      rw [hne] at b; cases b
      rcases c with c | ⟨_, c | c⟩
      · exact (her c).elim
      · exact (hxr c).elim
      · rcases cq with cq | ⟨_, cq | cq⟩
        · exact (hqr cq).elim
        · exact (her cq).elim
        · exact Nat.lt_trans cq c
    · obtain ⟨y, a, b, c⟩ := h.fw x hx
      have hye : y ≠ e := by
        rintro rfl
        rcases c with c | ⟨c, _⟩
        · exact her c
        · rw [hp] at c; cases c; exact hxp rfl
      refine ⟨y, ⟨a, hye⟩, by simp [upd, hxp, b], ?_⟩
      rcases c with c | ⟨c, d⟩
      · exact .inl c
      by_cases hyq : y = q
      · subst hyq
        rcases cq with cq | ⟨cq, _⟩
        · exact .inl cq
        · rw [c] at cq; cases cq; exact (hxe rfl).elim
      · exact .inr ⟨by simp [upd, hyq, c], d⟩
  · rintro x ⟨hx, hxe⟩
    by_cases hxq : x = q
    · subst hxq
      refine ⟨p, ⟨dp, pe⟩, by simp [upd], .inr (by simp [upd])⟩
    · obtain ⟨y, a, b, c⟩ := h.bw x hx
      have hye : y ≠ e := by
        rintro rfl
        rcases c with c | c
        · exact her c
        · rw [hq] at c; cases c; exact hxq rfl
      refine ⟨y, ⟨a, hye⟩, by simp [upd, hxq, b], ?_⟩
      rcases c with c | c
      · exact .inl c
      by_cases hyp : y = p
      · subst hyp
        rcases cp with cp | cp
        · exact .inl cp
        · rw [c] at cp; cases cp; exact (hxe rfl).elim
      · exact .inr (by simp [upd, hyp, c])

/-- Putting an element in, behind `a`. -/
theorem Lks.link (h : Lks nx pv D r rank) {e a b : Ptr} (he : ¬ D e) (ha : D a) (hb : nx a = some b) :
    D b ∧ ∃ rank', Lks (upd (upd nx e (some b)) a (some e)) (upd (upd pv e (some a)) b (some e)) (fun x => D x ∨ x = e) r rank' := by
  obtain ⟨b', db, eb, cb⟩ := h.fw a ha
  rw [hb] at eb; cases eb
  have her : e ≠ r := by rintro rfl; exact he h.root
  have hea : a ≠ e := by rintro rfl; exact he ha
  have heb : b ≠ e := by rintro rfl; exact he db
  have hne : ∀ x, D x → x ≠ e := by rintro x hx rfl; exact he hx
  refine ⟨db, fun x => if x = e then (if a = r then 2 * rank b + 2 else 2 * rank a) else 2 * rank x + 1, .inl h.root, ?_, ?_⟩
  · rintro x hx
    by_cases hxe : x = e
    · subst hxe
      refine ⟨b, .inl db, by simp [upd, hea.symm], ?_⟩
      by_cases hbr : b = r
      · exact .inl hbr
      refine .inr ⟨by simp [upd], .inr ?_⟩
      simp only [heb, if_false, if_true]
      rcases cb with cb | ⟨_, cb⟩
      · exact (hbr cb).elim
      · split
        · omega
        · next har => have := cb.resolve_left har; omega
    · replace hx := hx.resolve_right hxe
      by_cases hxa : x = a
      · subst hxa
        refine ⟨e, .inr rfl, by simp [upd], .inr ⟨by simp [upd, heb.symm], ?_⟩⟩
        by_cases har : x = r
        · exact .inl har
        · refine .inr ?_
          simp only [if_true, hea, if_false, har]
          omega
      · obtain ⟨y, c, d, f⟩ := h.fw x hx
        refine ⟨y, .inl c, by simp [upd, hxa, hxe, d], ?_⟩
        rcases f with f | ⟨f, g⟩
        · exact .inl f
        by_cases hyb : y = b
        · subst hyb
          rcases cb with cb | ⟨cb, _⟩
          · exact .inl cb
          · rw [f] at cb; cases cb; exact (hxa rfl).elim
        · refine .inr ⟨by simp [upd, hyb, hne y c, f], ?_⟩
          rcases g with g | g
          · exact .inl g
          · refine .inr ?_
            simp only [hne y c, hxe, if_false]
            omega
  · rintro x hx
    by_cases hxe : x = e
    · subst hxe
      exact ⟨a, .inl ha, by simp [upd, heb.symm], .inr (by simp [upd])⟩
    · replace hx := hx.resolve_right hxe
      by_cases hxb : x = b
      · subst hxb
        exact ⟨e, .inr rfl, by simp [upd], .inr (by simp [upd, hea.symm])⟩
      · obtain ⟨y, c, d, f⟩ := h.bw x hx
        refine ⟨y, .inl c, by simp [upd, hxb, hxe, d], ?_⟩
        rcases f with f | f
        · exact .inl f
        by_cases hya : y = a
        · subst hya
          rw [hb] at f; cases f; exact (hxb rfl).elim
        · exact .inr (by simp [upd, hya, hne y c, f])

/-- Exchanging two elements that are not neighbours. -/
theorem Lks.exchange (h : Lks nx pv D r rank) {a b ap an bp bn : Ptr} (ha : D a) (hb : D b) (har : a ≠ r) (hbr : b ≠ r) (hab : a ≠ b)
    (h1 : nx a ≠ some b) (h2 : nx b ≠ some a) (eap : pv a = some ap) (ean : nx a = some an) (ebp : pv b = some bp) (ebn : nx b = some bn) :
    ∃ rank', Lks (upd (upd (upd (upd nx ap (some b)) bp (some a)) a (some bn)) b (some an))
      (upd (upd (upd (upd pv an (some b)) bn (some a)) a (some bp)) b (some ap)) D r rank' := by
  obtain ⟨x, dap, e, cap⟩ := h.bw a ha; rw [eap] at e; cases e
  obtain ⟨x, dan, e, can⟩ := h.fw a ha; rw [ean] at e; cases e
  obtain ⟨x, dbp, e, cbp⟩ := h.bw b hb; rw [ebp] at e; cases e
  obtain ⟨x, dbn, e, cbn⟩ := h.fw b hb; rw [ebn] at e; cases e
  have apa := (h.ne (q := ap) ha har).2 eap
  have ana := (h.ne (q := an) ha har).1 ean
  have bpb := (h.ne (q := bp) hb hbr).2 ebp
  have bnb := (h.ne (q := bn) hb hbr).1 ebn
  have anb : an ≠ b := by rintro rfl; exact h1 ean
  have bna : bn ≠ a := by rintro rfl; exact h2 ebn
  have apb : ap ≠ b := by
    rintro rfl
    rcases cap with c | c
    · exact hbr c
    · exact h2 c
  have bpa : bp ≠ a := by
    rintro rfl
    rcases cbp with c | c
    · exact har c
    · exact h1 c
  -- the two rows of neighbours do not meet, but in the sentinel
  have hp : ap = bp → ap = r := by
    rintro rfl
    rcases cap with c | c
    · exact c
    rcases cbp with d | d
    · exact d
    · rw [c] at d; cases d; exact (hab rfl).elim
  have hn : an = bn → an = r := by
    rintro rfl
    rcases can with c | ⟨c, _⟩
    · exact c
    rcases cbn with d | ⟨d, _⟩
    · exact d
    · rw [c] at d; cases d; exact (hab rfl).elim
  refine ⟨fun x => if x = a then rank b else if x = b then rank a else rank x, h.root, ?_, ?_⟩
  · intro x hx
    by_cases hxa : x = a
    · subst hxa
      refine ⟨bn, dbn, by simp [upd, hab], ?_⟩
      rcases cbn with c | ⟨_, c | c⟩
      · exact .inl c
      · exact (hbr c).elim
      · exact .inr ⟨by simp [upd, bnb, bna], .inr (by simp [bnb, bna, c])⟩
    by_cases hxb : x = b
    · subst hxb
      refine ⟨an, dan, by simp [upd], ?_⟩
      rcases can with c | ⟨_, c | c⟩
      · exact .inl c
      · exact (har c).elim
      · by_cases hh : an = bn
        · exact .inl (hn hh)
        · exact .inr ⟨by simp [upd, ana, anb, hh], .inr (by simp [ana, anb, hxa, c])⟩
    by_cases hxbp : x = bp
    · subst hxbp
      refine ⟨a, ha, by simp [upd, hxa, hxb], .inr ⟨by simp [upd, hab], ?_⟩⟩
      by_cases hxr : x = r
      · exact .inl hxr
      refine .inr ?_
      have c := cbp.resolve_left hxr
      obtain ⟨y, _, d, f⟩ := h.fw x hx
      rw [c] at d; cases d
      rcases f with f | ⟨_, f | f⟩
      · exact (hbr f).elim
      · exact (hxr f).elim
      · simp [hxa, hxb, f]
    by_cases hxap : x = ap
    · subst hxap
      refine ⟨b, hb, by simp [upd, hxa, hxb, hxbp], .inr ⟨by simp [upd], ?_⟩⟩
      by_cases hxr : x = r
      · exact .inl hxr
      refine .inr ?_
      have c := cap.resolve_left hxr
      obtain ⟨y, _, d, f⟩ := h.fw x hx
      rw [c] at d; cases d
      rcases f with f | ⟨_, f | f⟩
      · exact (har f).elim
      · exact (hxr f).elim
      · simp [hxa, hxb, f, hab.symm]
    · obtain ⟨y, c, d, f⟩ := h.fw x hx
      refine ⟨y, c, by simp [upd, hxa, hxb, hxbp, hxap, d], ?_⟩
      rcases f with f | ⟨f, g⟩
      · exact .inl f
      have ya : y ≠ a := by rintro rfl; rw [eap] at f; cases f; exact hxap rfl
      have yb : y ≠ b := by rintro rfl; rw [ebp] at f; cases f; exact hxbp rfl
      have yan : y = an → an = r := by
        rintro rfl
        rcases can with c | ⟨c, _⟩
        · exact c
        · rw [f] at c; cases c; exact (hxa rfl).elim
      have ybn : y = bn → bn = r := by
        rintro rfl
        rcases cbn with c | ⟨c, _⟩
        · exact c
        · rw [f] at c; cases c; exact (hxb rfl).elim
      by_cases hyr : y = r
      · exact .inl hyr
      · have y1 : y ≠ an := fun hh => hyr (hh.trans (yan hh))
        have y2 : y ≠ bn := fun hh => hyr (hh.trans (ybn hh))
        refine .inr ⟨by simp [upd, ya, yb, y1, y2, f], ?_⟩
        simpa [ya, yb, hxa, hxb] using g
  · intro x hx
    by_cases hxa : x = a
    · subst hxa
      refine ⟨bp, dbp, by simp [upd, hab], ?_⟩
      by_cases hbp : bp = r
      · exact .inl hbp
      · exact .inr (by simp [upd, bpa, bpb])
    by_cases hxb : x = b
    · subst hxb
      refine ⟨ap, dap, by simp [upd], ?_⟩
      by_cases hap : ap = r
      · exact .inl hap
      · have : ap ≠ bp := fun hh => hap (hp hh)
        exact .inr (by simp [upd, apa, apb, this])
    by_cases hxbn : x = bn
    · subst hxbn
      exact ⟨a, ha, by simp [upd, hxa, hxb], .inr (by simp [upd, hab])⟩
    by_cases hxan : x = an
    · subst hxan
      exact ⟨b, hb, by simp [upd, hxa, hxb, hxbn], .inr (by simp [upd])⟩
    · obtain ⟨y, c, d, f⟩ := h.bw x hx
      refine ⟨y, c, by simp [upd, hxa, hxb, hxbn, hxan, d], ?_⟩
      rcases f with f | f
      · exact .inl f
      by_cases hyr : y = r
      · exact .inl hyr
      refine .inr ?_
      have ya : y ≠ a := by rintro rfl; rw [ean] at f; cases f; exact hxan rfl
      have yb : y ≠ b := by rintro rfl; rw [ebn] at f; cases f; exact hxbn rfl
      have y1 : y ≠ ap := by
        rintro rfl
        have := cap.resolve_left hyr
        rw [f] at this; cases this; exact hxa rfl
      have y2 : y ≠ bp := by
        rintro rfl
        have := cbp.resolve_left hyr
        rw [f] at this; cases this; exact hxb rfl
      simp [upd, ya, yb, y1, y2, f]

/-- `Clear`. -/
theorem Lks.reset (h : Lks nx pv D r rank) : Lks (upd nx r (some r)) (upd pv r (some r)) D r rank := by
  refine ⟨h.root, fun p hp => ?_, fun p hp => ?_⟩
  · by_cases hpr : p = r
    · subst hpr; exact ⟨p, h.root, by simp [upd], .inl rfl⟩
    · obtain ⟨q, a, b, c⟩ := h.fw p hp
      refine ⟨q, a, by simp [upd, hpr, b], ?_⟩
      by_cases hqr : q = r
      · exact .inl hqr
      · rw [show upd pv r (some r) q = pv q by simp [upd, hqr]]; exact c
  · by_cases hpr : p = r
    · subst hpr; exact ⟨p, h.root, by simp [upd], .inl rfl⟩
    · obtain ⟨q, a, b, c⟩ := h.bw p hp
      refine ⟨q, a, by simp [upd, hpr, b], ?_⟩
      by_cases hqr : q = r
      · exact .inl hqr
      · rw [show upd nx r (some r) q = nx q by simp [upd, hqr]]; exact c
end

/-! ## The memory -/

/-- The sentinel of `l` and all elements that say they are in `l`. -/
def Mine (m : Mem T) (l : Nat) (p : Ptr) : Prop := p = .root l ∨ m.owner p = some l

/-- What holds of the memory whatever calls are made. -/
structure Sound (m : Mem T) : Prop where
  lk : ∀ l, m.inited l = true → ∃ rank, Lks m.next m.prev (Mine m l) (.root l) rank
  rootOwner : ∀ l, m.owner (.root l) = none
  ini : ∀ p l, m.owner p = some l → m.inited l = true
  alloc : ∀ n l, m.owner (.node n) = some l → n < m.fresh
  idle : ∀ n, m.owner (.node n) = none → m.next (.node n) = none ∧ m.prev (.node n) = none
  zero : ∀ l, m.inited l = false → m.next (.root l) = none ∧ m.prev (.root l) = none

theorem Sound.empty : Sound (Mem.empty : Mem T) := ⟨by simp [Mem.empty], by simp [Mem.empty], by simp [Mem.empty], by simp [Mem.empty], by simp [Mem.empty], by simp [Mem.empty]⟩

theorem Mine.disj (h : Sound m) {l l' : Nat} (hl : l' ≠ l) {p : Ptr} (h1 : Mine m l' p) : ¬ Mine m l p := by
  rcases h1 with rfl | h1
  · rintro (h2 | h2)
    · exact hl (by injection h2)
    · rw [h.rootOwner] at h2; cases h2
  · rintro (rfl | h2)
    · rw [h.rootOwner] at h1; cases h1
    · rw [h1] at h2; exact hl (by injection h2)

/-- A change of the links of one list. -/
theorem Sound.change (h : Sound m) {l : Nat} (hi : m.inited l = true) {m' : Mem T}
    (hin : m'.inited = m.inited) (hf : m.fresh ≤ m'.fresh) {e : Ptr} (he : ∀ l', l' ≠ l → ¬ Mine m l' e) (her : ∀ l', e ≠ .root l')
    (hea : ∀ n, e = .node n → n < m'.fresh)
    (hl : ∃ rank, Lks m'.next m'.prev (Mine m' l) (.root l) rank)
    (hn : ∀ p, ¬ Mine m l p → p ≠ e → m'.next p = m.next p ∧ m'.prev p = m.prev p)
    (ho : ∀ p, p ≠ e → m'.owner p = m.owner p) (hoe : m'.owner e = none ∧ m'.next e = none ∧ m'.prev e = none ∨ m'.owner e = some l) : Sound m' := by
  refine ⟨fun l' hl' => ?_, fun l' => by rw [ho _ (her l').symm]; exact h.rootOwner l', fun p l' hp => ?_, fun n l' hn' => ?_, fun n hno => ?_, fun l' hl' => ?_⟩
  · by_cases hll : l' = l
    · subst hll; exact hl
    · obtain ⟨rank, hk⟩ := h.lk l' (by rw [← hin]; exact hl')
      have ne : ∀ p, Mine m l' p → p ≠ e := by rintro p hp rfl; exact he l' hll hp
      refine ⟨rank, hk.congr (fun p hp => (hn p (hp.disj h hll) (ne p hp)).1) (fun p hp => (hn p (hp.disj h hll) (ne p hp)).2) fun p => ?_⟩
      unfold Mine
      by_cases hpe : p = e
      · subst hpe
        constructor
        · rintro (c | c)
          · exact .inl c
          · rcases hoe with d | d
            · rw [d.1] at c; cases c
            · rw [d] at c; injection c with c; exact (hll c.symm).elim
        · intro c; exact (he l' hll c).elim
      · rw [ho p hpe]
  · rw [hin]
    by_cases hpe : p = e
    · subst hpe
      rcases hoe with d | d
      · rw [d.1] at hp; cases hp
      · rw [d] at hp; cases hp; exact hi
    · rw [ho p hpe] at hp; exact h.ini p l' hp
  · by_cases hpe : (Ptr.node n) = e
    · exact hea n hpe.symm
    · rw [ho _ hpe] at hn'; exact Nat.lt_of_lt_of_le (h.alloc n l' hn') hf
  · by_cases hpe : (Ptr.node n) = e
    · subst hpe
      rcases hoe with d | d
      · exact d.2
      · rw [d] at hno; cases hno
    · rw [ho _ hpe] at hno
      have hm : ¬ Mine m l (.node n) := by
        rintro (c | c)
        · cases c
        · rw [hno] at c; cases c
      obtain ⟨a, b⟩ := hn _ hm hpe
      rw [a, b]; exact h.idle n hno
  · rw [hin] at hl'
    have hm : ¬ Mine m l (.root l') := by
      rintro (c | c)
      · injection c with c; subst c; rw [hi] at hl'; cases hl'
      · rw [h.rootOwner] at c; cases c
    obtain ⟨a, b⟩ := hn _ hm (her l').symm
    rw [a, b]; exact h.zero l' hl'

theorem Sound.clear (h : Sound m) (l : Nat) : Sound (clear m l) := by
  have hz : ∀ l', (Dllist.clear m l).inited l' = true → ∃ rank, Lks (Dllist.clear m l).next (Dllist.clear m l).prev (Mine m l') (.root l') rank := by
    intro l' hl'
    by_cases hll : l' = l
    · subst hll
      by_cases hi : m.inited l' = true
      · obtain ⟨rank, hk⟩ := h.lk l' hi
        exact ⟨rank, hk.reset⟩
      · have no : ∀ p, Mine m l' p → p = .root l' := by
          rintro p (hp | hp)
          · exact hp
          · exact (hi (h.ini p l' hp)).elim
        refine ⟨fun _ => 0, .inl rfl, fun p hp => ?_, fun p hp => ?_⟩
        · rw [no p hp]; exact ⟨.root l', .inl rfl, by simp [Dllist.clear, Mem.setNext, Mem.setPrev, Mem.setLen, Mem.setInited, upd], .inl rfl⟩
        · rw [no p hp]; exact ⟨.root l', .inl rfl, by simp [Dllist.clear, Mem.setNext, Mem.setPrev, Mem.setLen, Mem.setInited, upd], .inl rfl⟩
    · have hl2 : m.inited l' = true := by simpa [Dllist.clear, Mem.setInited, Mem.setNext, Mem.setPrev, Mem.setLen, upd, hll] using hl'
      obtain ⟨rank, hk⟩ := h.lk l' hl2
      have ne : ∀ p, Mine m l' p → p ≠ .root l := by rintro p hp rfl; exact hp.disj h hll (.inl rfl)
      exact ⟨rank, hk.congr (fun p hp => by simp [Dllist.clear, Mem.setNext, Mem.setPrev, Mem.setLen, Mem.setInited, upd, ne p hp])
        (fun p hp => by simp [Dllist.clear, Mem.setNext, Mem.setPrev, Mem.setLen, Mem.setInited, upd, ne p hp]) fun _ => .rfl⟩
  refine ⟨hz, h.rootOwner, fun p l' hp => ?_, h.alloc, fun n hn => ?_, fun l' hl' => ?_⟩
  · have := h.ini p l' hp
    simp [Dllist.clear, Mem.setInited, Mem.setNext, Mem.setPrev, Mem.setLen, upd, this]
  · simpa [Dllist.clear, Mem.setInited, Mem.setNext, Mem.setPrev, Mem.setLen, upd] using h.idle n hn
  · by_cases hll : l' = l
    · simp [Dllist.clear, Mem.setInited, Mem.setNext, Mem.setPrev, Mem.setLen, upd, hll] at hl'
    · simp [Dllist.clear, Mem.setInited, Mem.setNext, Mem.setPrev, Mem.setLen, upd, hll] at hl' ⊢
      exact h.zero l' hl'

theorem Sound.lazyInit (h : Sound m) (l : Nat) : Sound (lazyInit m l) ∧ (lazyInit m l).inited l = true ∧ (lazyInit m l).owner = m.owner := by
  unfold Dllist.lazyInit
  split
  · next hi => exact ⟨h, hi, rfl⟩
  · exact ⟨h.clear l, by simp [Dllist.clear, Mem.setInited, upd], rfl⟩

/-- A new element is put in behind an element of `l`, or behind its sentinel. -/
theorem Sound.insertValue (h : Sound m) {l : Nat} (hi : m.inited l = true) (v : T) {a : Ptr} (ha : Mine m l a) :
    ∃ m', insertValue m l v (some a) = some (m', m.fresh) ∧ Sound m' ∧ m'.inited = m.inited ∧ (∀ p, p ≠ .node m.fresh → m'.owner p = m.owner p) := by
  obtain ⟨rank, hk⟩ := h.lk l hi
  obtain ⟨b, db, eb, _⟩ := hk.fw a ha
  have hno : m.owner (.node m.fresh) = none := by
    cases ho : m.owner (.node m.fresh) with
    | none => rfl
    | some l' => exact (Nat.lt_irrefl _ (h.alloc _ _ ho)).elim
  have hne : ∀ l', ¬ Mine m l' (.node m.fresh) := by
    rintro l' (hc | hc)
    · cases hc
    · rw [hno] at hc; cases hc
  have hea : a ≠ .node m.fresh := by rintro rfl; exact hne l ha
  have heb : b ≠ .node m.fresh := by rintro rfl; exact hne l db
  obtain ⟨_, rank', hk'⟩ := hk.link (hne l) ha eb
  refine ⟨{ m with fresh := m.fresh + 1, val := upd m.val m.fresh (some v), next := upd (upd m.next (.node m.fresh) (some b)) a (some (.node m.fresh)), prev := upd (upd m.prev (.node m.fresh) (some a)) b (some (.node m.fresh)), owner := upd m.owner (.node m.fresh) (some l), len := upd m.len l (m.len l + 1) }, ?_, ?_, rfl, ?_⟩
  · simp [Dllist.insertValue, Dllist.insert, Mem.setNext, Mem.setPrev, Mem.setOwner, Mem.setLen, upd, eb, hea, hea.symm]
  · refine h.change hi rfl (Nat.le_succ _) (e := .node m.fresh) (fun l' _ => hne l') (by simp) (by simp) ⟨rank', hk'.congr (fun _ _ => rfl) (fun _ _ => rfl) fun p => ?_⟩ ?_ ?_ ?_
    · simp only [Mine, upd]
      constructor
      · rintro (c | c)
        · exact .inl (.inl c)
        · split at c
          · next hh => exact .inr hh
          · exact .inl (.inr c)
      · rintro ((c | c) | c)
        · exact .inl c
        · right; split
          · rfl
          · exact c
        · exact .inr (by simp [c])
    · intro p hp hpe
      have h1 : p ≠ a := by rintro rfl; exact hp ha
      have h2 : p ≠ b := by rintro rfl; exact hp db
      simp [upd, hpe, h1, h2]
    · intro p hp; simp [upd, hp]
    · right; simp [upd]
  · intro p hp; simp [upd, hp]

/-- `remove`. -/
theorem Sound.remove (h : Sound m) {l n : Nat} (ho : m.owner (.node n) = some l) :
    ∃ m', remove m l (.node n) = some m' ∧ Sound m' ∧ m'.owner (.node n) = none ∧ m'.val = m.val := by
  have hi := h.ini _ _ ho
  obtain ⟨rank, hk⟩ := h.lk l hi
  have he : Mine m l (.node n) := .inr ho
  obtain ⟨p, dp, ep, _⟩ := hk.bw _ he
  obtain ⟨q, dq, eq, _⟩ := hk.fw _ he
  obtain ⟨_, _, pe, qe, hk'⟩ := hk.unlink he (by simp) ep eq
  refine ⟨{ m with next := upd (upd m.next p (some q)) (.node n) none, prev := upd (upd m.prev q (some p)) (.node n) none, owner := upd m.owner (.node n) none, len := upd m.len l (m.len l - 1) }, ?_, ?_, by simp [upd], rfl⟩
  · simp [Dllist.remove, Mem.setNext, Mem.setPrev, Mem.setOwner, Mem.setLen, upd, ep, eq, pe.symm]
  · refine h.change hi rfl (Nat.le_refl _) (e := .node n) (fun l' hl hc => hc.disj h hl he) (by simp) (by simpa using h.alloc n l ho) ⟨rank, ?_⟩ ?_ ?_ ?_
    · refine hk'.congr (fun x hx => by simp [upd, hx.2]) (fun x hx => by simp [upd, hx.2]) fun x => ?_
      simp only [Mine, upd]
      constructor
      · rintro (c | c)
        · exact ⟨.inl c, by rintro rfl; cases c⟩
        · split at c
          · cases c
          · next hh => exact ⟨.inr c, hh⟩
      · rintro ⟨c | c, d⟩
        · exact .inl c
        · right; simp [d, c]
    · intro x hx hxe
      have h1 : x ≠ p := by rintro rfl; exact hx dp
      have h2 : x ≠ q := by rintro rfl; exact hx dq
      simp [upd, hxe, h1, h2]
    · intro x hx; simp [upd, hx]
    · left; simp [upd]

/-- `move`. -/
theorem Sound.move (h : Sound m) {l n : Nat} (ho : m.owner (.node n) = some l) {a : Ptr} (ha : Mine m l a) :
    ∃ m', move m (.node n) (some a) = some m' ∧ Sound m' := by
  by_cases hne : Ptr.node n = a
  · exact ⟨m, by simp [Dllist.move, hne], h⟩
  have hi := h.ini _ _ ho
  obtain ⟨rank, hk⟩ := h.lk l hi
  have he : Mine m l (.node n) := .inr ho
  obtain ⟨p, dp, ep, _⟩ := hk.bw _ he
  obtain ⟨q, dq, eq, _⟩ := hk.fw _ he
  obtain ⟨_, _, pe, qe, hk'⟩ := hk.unlink he (by simp) ep eq
  obtain ⟨b, db, eb, _⟩ := hk'.fw a ⟨ha, Ne.symm hne⟩
  obtain ⟨_, rank', hk''⟩ := hk'.link (e := .node n) (fun hc => hc.2 rfl) ⟨ha, Ne.symm hne⟩ eb
  refine ⟨{ m with next := upd (upd (upd m.next p (some q)) (.node n) (some b)) a (some (.node n)), prev := upd (upd (upd m.prev q (some p)) (.node n) (some a)) b (some (.node n)) }, ?_, ?_⟩
  · have eb' : (if a = p then some q else m.next a) = some b := eb
    simp [Dllist.move, Mem.setNext, Mem.setPrev, upd, ep, eq, pe.symm, qe.symm, hne, eb', Ne.symm hne]
  · refine h.change hi rfl (Nat.le_refl _) (e := .node n) (fun l' hl hc => hc.disj h hl he) (by simp) (by simpa using h.alloc n l ho) ⟨rank', ?_⟩ ?_ ?_ ?_
    · refine hk''.congr (fun x hx => rfl) (fun x hx => rfl) fun x => ?_
      constructor
      · intro c
        by_cases hxn : x = .node n
        · exact .inr hxn
        · exact .inl ⟨c, hxn⟩
      · rintro (c | c)
        · exact c.1
        · exact c ▸ he
    · intro x hx hxe
      have h1 : x ≠ p := by rintro rfl; exact hx dp
      have h2 : x ≠ q := by rintro rfl; exact hx dq
      have h3 : x ≠ a := by rintro rfl; exact hx ha
      have h4 : x ≠ b := by rintro rfl; exact hx db.1
      simp [upd, hxe, h1, h2, h3, h4]
    · intro x _; rfl
    · exact .inr ho

/-- New links for one list, everything else as it was. -/
theorem Sound.relink (h : Sound m) {l n : Nat} (ho : m.owner (.node n) = some l) {nx pv : Ptr → Option Ptr} (hl : ∃ rank, Lks nx pv (Mine m l) (.root l) rank)
    (hn : ∀ p, ¬ Mine m l p → nx p = m.next p ∧ pv p = m.prev p) : Sound { m with next := nx, prev := pv } :=
  h.change (h.ini _ _ ho) rfl (Nat.le_refl _) (e := .node n) (fun l' hl hc => hc.disj h hl (.inr ho)) (by simp) (by simpa using h.alloc n l ho) hl
    (fun p hp _ => hn p hp) (fun _ _ => rfl) (.inr ho)

/-- Exchanging two neighbours is moving the first behind the second. -/
theorem Sound.swapNext (h : Sound m) {l a b : Nat} (ha : m.owner (.node a) = some l) (hb : m.owner (.node b) = some l) (hab : a ≠ b) (hn : m.next (.node a) = some (.node b))
    {ap bn : Ptr} (eap : m.prev (.node a) = some ap) (ebn : m.next (.node b) = some bn) :
    ap ≠ .node a ∧ ap ≠ .node b ∧ bn ≠ .node a ∧ bn ≠ .node b ∧
    Sound { m with next := upd (upd (upd m.next ap (some (.node b))) (.node a) (some bn)) (.node b) (some (.node a)),
                   prev := upd (upd (upd m.prev bn (some (.node a))) (.node b) (some ap)) (.node a) (some (.node b)) } := by
  obtain ⟨rank, hk⟩ := h.lk l (h.ini _ _ ha)
  have da : Mine m l (.node a) := .inr ha
  have db : Mine m l (.node b) := .inr hb
  obtain ⟨dap, _, pe, qe, hk'⟩ := hk.unlink da (by simp) eap hn
  obtain ⟨x, dbn, e, cb⟩ := hk.fw _ db
  rw [ebn] at e; cases e
  have bnb := (hk.ne (q := bn) db (by simp)).1 ebn
  have apb : ap ≠ .node b := by
    rintro rfl
    obtain ⟨x, _, e, c⟩ := hk.bw _ da
    rw [eap] at e; cases e
    rcases c with c | c
    · cases c
    obtain ⟨x, _, e, c'⟩ := hk.fw _ db
    rw [c] at e; cases e
    obtain ⟨x, _, e, d'⟩ := hk.fw _ da
    rw [hn] at e; cases e
    rcases c' with c' | ⟨_, c' | c'⟩ <;> try cases c'
    rcases d' with d' | ⟨_, d' | d'⟩ <;> try cases d'
    exact Nat.lt_asymm c' d'
  have bna : bn ≠ .node a := by
    rintro rfl
    rcases cb with c | ⟨c, _⟩
    · cases c
    · rw [eap] at c; cases c; exact apb rfl
  have hab' : Ptr.node b ≠ .node a := by simpa using Ne.symm hab
  have ebn' : upd m.next ap (some (.node b)) (.node b) = some bn := by simp [upd, Ne.symm apb, ebn]
  obtain ⟨_, rank', hk''⟩ := hk'.link (e := .node a) (fun hc => hc.2 rfl) ⟨db, hab'⟩ ebn'
  refine ⟨pe, apb, bna, bnb, h.relink ha ⟨rank', hk''.congr (fun x _ => ?_) (fun x _ => ?_) fun x => ?_⟩ fun x hx => ?_⟩
  · simp only [upd]
  · simp only [upd]
    by_cases h1 : x = .node a
    · simp [h1, Ne.symm bna]
    by_cases h2 : x = .node b
    · simp [h2, Ne.symm hab, Ne.symm bnb]
    · simp [h1, h2]
  · constructor
    · intro c
      by_cases hxn : x = .node a
      · exact .inr hxn
      · exact .inl ⟨c, hxn⟩
    · rintro (c | c)
      · exact c.1
      · exact c ▸ da
  · have h1 : x ≠ ap := by rintro rfl; exact hx dap
    have h2 : x ≠ bn := by rintro rfl; exact hx dbn
    have h3 : x ≠ .node a := by rintro rfl; exact hx da
    have h4 : x ≠ .node b := by rintro rfl; exact hx db
    simp [upd, h1, h2, h3, h4]

theorem Sound.swap (h : Sound m) (l a b : Nat) : ∃ m', swap m l a b = some m' ∧ Sound m' := by
  by_cases hg : m.owner (.node a) ≠ some l ∨ m.owner (.node b) ≠ some l ∨ a = b
  · exact ⟨m, by simp only [Dllist.swap, if_pos hg], h⟩
  have ha : m.owner (.node a) = some l := by by_contra hc; exact hg (.inl hc)
  have hb : m.owner (.node b) = some l := by by_contra hc; exact hg (.inr (.inl hc))
  have hab : a ≠ b := fun hc => hg (.inr (.inr hc))
  obtain ⟨rank, hk⟩ := h.lk l (h.ini _ _ ha)
  have da : Mine m l (.node a) := .inr ha
  have db : Mine m l (.node b) := .inr hb
  obtain ⟨ap, dap, eap, cap⟩ := hk.bw _ da
  obtain ⟨an, dan, ean, can⟩ := hk.fw _ da
  obtain ⟨bp, dbp, ebp, cbp⟩ := hk.bw _ db
  obtain ⟨bn, dbn, ebn, cbn⟩ := hk.fw _ db
  by_cases h1 : m.next (.node a) = some (.node b)
  · obtain ⟨i1, i2, i3, i4, hs⟩ := h.swapNext ha hb hab h1 eap ebn
    refine ⟨_, ?_, hs⟩
    simp [Dllist.swap, ha, hb, hab, h1, eap, ebn, Mem.setNext, Mem.setPrev, upd, i1, i2, i3, i4, Ne.symm i1, Ne.symm i2, Ne.symm i3, Ne.symm i4, Ne.symm hab]
  by_cases h2 : m.next (.node b) = some (.node a)
  · obtain ⟨i1, i2, i3, i4, hs⟩ := h.swapNext hb ha (Ne.symm hab) h2 ebp ean
    refine ⟨_, ?_, hs⟩
    simp only [Dllist.swap, if_neg hg, if_neg h1, if_pos h2]
    simp [ebp, ean, Mem.setNext, Mem.setPrev, upd, i1, i2, i3, i4, Ne.symm i1, Ne.symm i2, Ne.symm i3, Ne.symm i4, Ne.symm hab, hab]
  obtain ⟨rank', hk'⟩ := hk.exchange da db (by simp) (by simp) (by simpa using hab) h1 h2 eap ean ebp ebn
  have apa := (hk.ne (q := ap) da (by simp)).2 eap
  have ana := (hk.ne (q := an) da (by simp)).1 ean
  have bpb := (hk.ne (q := bp) db (by simp)).2 ebp
  have bnb := (hk.ne (q := bn) db (by simp)).1 ebn
  have anb : an ≠ .node b := by rintro rfl; exact h1 ean
  have bna : bn ≠ .node a := by rintro rfl; exact h2 ebn
  have apb : ap ≠ .node b := by
    rintro rfl
    rcases cap with c | c
    · cases c
    · exact h2 c
  have bpa : bp ≠ .node a := by
    rintro rfl
    rcases cbp with c | c
    · cases c
    · exact h1 c
  refine ⟨_, ?_, h.relink ha ⟨rank', hk'⟩ fun x hx => ?_⟩
  · simp only [Dllist.swap, if_neg hg, if_neg h1, if_neg h2]
    simp [eap, ean, ebp, ebn, Mem.setNext, Mem.setPrev, upd, Ne.symm apa, Ne.symm ana, Ne.symm bpb, Ne.symm bnb, Ne.symm anb, Ne.symm bna, Ne.symm apb, Ne.symm bpa, Ne.symm hab, hab]
  · have i1 : x ≠ ap := by rintro rfl; exact hx dap
    have i2 : x ≠ an := by rintro rfl; exact hx dan
    have i3 : x ≠ bp := by rintro rfl; exact hx dbp
    have i4 : x ≠ bn := by rintro rfl; exact hx dbn
    have i5 : x ≠ .node a := by rintro rfl; exact hx da
    have i6 : x ≠ .node b := by rintro rfl; exact hx db
    simp [upd, i1, i2, i3, i4, i5, i6]

/-! ## The calls -/

/-- The calls without a loop. -/
def plain : Op T → Bool
  | .slice _ | .pushBackList .. | .pushFrontList .. | .pushBackListTo .. | .pushFrontListTo .. | .sort .. => false
  | _ => true

theorem Sound.front (h : Sound m) (l : Nat) : Sound (front m l).1 ∧ ∀ p, (Dllist.front m l).2 = some p → (Dllist.front m l).1.inited l = true ∧ Mine (Dllist.front m l).1 l p := by
  unfold Dllist.front
  split
  · exact ⟨h, by simp⟩
  · obtain ⟨h1, h2, _⟩ := h.lazyInit l
    refine ⟨h1, fun p hp => ⟨h2, ?_⟩⟩
    obtain ⟨rank, hk⟩ := h1.lk l h2
    obtain ⟨q, dq, eq, _⟩ := hk.fw _ hk.root
    simp only [eq] at hp
    cases hp; exact dq

theorem Sound.back (h : Sound m) (l : Nat) : Sound (back m l).1 ∧ ∀ p, (Dllist.back m l).2 = some p → (Dllist.back m l).1.inited l = true ∧ Mine (Dllist.back m l).1 l p := by
  unfold Dllist.back
  split
  · exact ⟨h, by simp⟩
  · obtain ⟨h1, h2, _⟩ := h.lazyInit l
    refine ⟨h1, fun p hp => ⟨h2, ?_⟩⟩
    obtain ⟨rank, hk⟩ := h1.lk l h2
    obtain ⟨q, dq, eq, _⟩ := hk.bw _ hk.root
    simp only [eq] at hp
    cases hp; exact dq

theorem Sound.walkNext (h : Sound m) {l : Nat} (hi : m.inited l = true) : ∀ (k : Nat) {p : Ptr}, Mine m l p → ∃ q, walkNext m k (some p) = some (some q) ∧ Mine m l q
  | 0, p, hp => ⟨p, rfl, hp⟩
  | k + 1, p, hp => by
    obtain ⟨rank, hk⟩ := h.lk l hi
    obtain ⟨q, dq, eq, _⟩ := hk.fw _ hp
    obtain ⟨q', h1, h2⟩ := h.walkNext hi k dq
    exact ⟨q', by simp [Dllist.walkNext, eq, h1], h2⟩

theorem Sound.walkPrev (h : Sound m) {l : Nat} (hi : m.inited l = true) : ∀ (k : Nat) {p : Ptr}, Mine m l p → ∃ q, walkPrev m k (some p) = some (some q) ∧ Mine m l q
  | 0, p, hp => ⟨p, rfl, hp⟩
  | k + 1, p, hp => by
    obtain ⟨rank, hk⟩ := h.lk l hi
    obtain ⟨q, dq, eq, _⟩ := hk.bw _ hp
    obtain ⟨q', h1, h2⟩ := h.walkPrev hi k dq
    exact ⟨q', by simp [Dllist.walkPrev, eq, h1], h2⟩

theorem Sound.get (h : Sound m) (l : Nat) (i : Int) : ∃ m' e, get m l i = some (m', e) ∧ Sound m' := by
  unfold Dllist.get
  split
  · exact ⟨m, none, rfl, h⟩
  obtain ⟨h1, h2, _⟩ := h.lazyInit l
  obtain ⟨rank, hk⟩ := h1.lk l h2
  simp only []
  split
  · obtain ⟨q, dq, eq, _⟩ := hk.fw _ hk.root
    obtain ⟨q', h3, h4⟩ := h1.walkNext h2 i.toNat dq
    exact ⟨_, some q', by simp [eq, h3], h1⟩
  · obtain ⟨q', h3, h4⟩ := h1.walkPrev h2 ((Dllist.lazyInit m l).len l - i).toNat hk.root
    exact ⟨_, some q', by simp [h3], h1⟩

theorem Sound.pushFront (h : Sound m) (l : Nat) (v : T) : ∃ m' n, pushFront m l v = some (m', n) ∧ Sound m' := by
  obtain ⟨h1, h2, _⟩ := h.lazyInit l
  obtain ⟨m', h3, h4, _⟩ := h1.insertValue h2 v (a := .root l) (.inl rfl)
  exact ⟨m', _, h3, h4⟩

/-- The place before an element, or before the sentinel. -/
theorem Sound.before (h : Sound m) {l : Nat} (hi : m.inited l = true) {p : Ptr} (hp : Mine m l p) : ∃ a, m.prev p = some a ∧ Mine m l a := by
  obtain ⟨rank, hk⟩ := h.lk l hi
  obtain ⟨q, dq, eq, _⟩ := hk.bw _ hp
  exact ⟨q, eq, dq⟩

theorem Sound.pushBack (h : Sound m) (l : Nat) (v : T) : ∃ m' n, pushBack m l v = some (m', n) ∧ Sound m' := by
  obtain ⟨h1, h2, _⟩ := h.lazyInit l
  obtain ⟨a, ha, da⟩ := h1.before h2 (p := .root l) (.inl rfl)
  obtain ⟨m', h3, h4, _⟩ := h1.insertValue h2 v da
  exact ⟨m', _, by simp only [Dllist.pushBack, ha]; exact h3, h4⟩

/-- Every call without a loop comes back, whatever its arguments. -/
theorem Sound.plain (h : Sound m) {op : Op T} (hp : plain op = true) : ∃ m' r, (∀ fuel, exec fuel m op = some (m', r)) ∧ Sound m' := by
  cases op with
  | slice | pushBackList | pushFrontList | pushBackListTo | pushFrontListTo | sort => simp [Dllist.plain] at hp
  | new => exact ⟨_, _, fun _ => rfl, Sound.clear (m := (zeroList m).1) ⟨h.lk, h.rootOwner, h.ini, h.alloc, h.idle, h.zero⟩ _⟩
  | zero => exact ⟨_, _, fun _ => rfl, ⟨h.lk, h.rootOwner, h.ini, h.alloc, h.idle, h.zero⟩⟩
  | clear l => exact ⟨_, _, fun _ => rfl, h.clear l⟩
  | pushFront l v =>
    obtain ⟨m', n, h1, h2⟩ := h.pushFront l v
    exact ⟨m', _, fun _ => by simp only [exec, h1]; rfl, h2⟩
  | pushBack l v =>
    obtain ⟨m', n, h1, h2⟩ := h.pushBack l v
    exact ⟨m', _, fun _ => by simp only [exec, h1]; rfl, h2⟩
  | insertBefore l v mark =>
    by_cases ho : m.owner (.node mark) = some l
    · obtain ⟨a, ha, da⟩ := h.before (h.ini _ _ ho) (.inr ho)
      obtain ⟨m', h3, h4, _⟩ := h.insertValue (h.ini _ _ ho) v da
      exact ⟨m', _, fun _ => by simp only [exec, Dllist.insertBefore, ne_eq, ho, not_true_eq_false, if_false, ha, h3]; rfl, h4⟩
    · exact ⟨m, _, fun _ => by simp only [exec, Dllist.insertBefore, ne_eq, ho, not_false_eq_true, if_true]; rfl, h⟩
  | insertAfter l v mark =>
    by_cases ho : m.owner (.node mark) = some l
    · obtain ⟨m', h3, h4, _⟩ := h.insertValue (h.ini _ _ ho) v (.inr ho)
      exact ⟨m', _, fun _ => by simp only [exec, Dllist.insertAfter, ne_eq, ho, not_true_eq_false, if_false, h3]; rfl, h4⟩
    · exact ⟨m, _, fun _ => by simp only [exec, Dllist.insertAfter, ne_eq, ho, not_false_eq_true, if_true]; rfl, h⟩
  | remove l e =>
    by_cases ho : m.owner (.node e) = some l
    · obtain ⟨m', h3, h4, _⟩ := h.remove ho
      exact ⟨m', _, fun _ => by simp only [exec, Dllist.lRemove, ho, if_true, h3]; rfl, h4⟩
    · exact ⟨m, _, fun _ => by simp only [exec, Dllist.lRemove, ho, if_false]; rfl, h⟩
  | moveToFront l e =>
    by_cases hg : m.owner (.node e) ≠ some l ∨ m.next (.root l) = some (.node e)
    · exact ⟨m, _, fun _ => by simp only [exec, Dllist.moveToFront, if_pos hg]; rfl, h⟩
    · have ho : m.owner (.node e) = some l := by by_contra hc; exact hg (.inl hc)
      obtain ⟨h1, h2, h3⟩ := h.lazyInit l
      obtain ⟨m', h4, h5⟩ := h1.move (n := e) (by rw [h3]; exact ho) (a := .root l) (.inl rfl)
      exact ⟨m', _, fun _ => by simp only [exec, Dllist.moveToFront, if_neg hg, h4]; rfl, h5⟩
  | moveToBack l e =>
    by_cases hg : m.owner (.node e) ≠ some l ∨ m.prev (.root l) = some (.node e)
    · exact ⟨m, _, fun _ => by simp only [exec, Dllist.moveToBack, if_pos hg]; rfl, h⟩
    · have ho : m.owner (.node e) = some l := by by_contra hc; exact hg (.inl hc)
      obtain ⟨h1, h2, h3⟩ := h.lazyInit l
      obtain ⟨a, ha, da⟩ := h1.before h2 (p := .root l) (.inl rfl)
      obtain ⟨m', h4, h5⟩ := h1.move (n := e) (by rw [h3]; exact ho) da
      exact ⟨m', _, fun _ => by simp only [exec, Dllist.moveToBack, if_neg hg, ha, h4]; rfl, h5⟩
  | moveBefore l e mark =>
    by_cases hg : m.owner (.node e) ≠ some l ∨ e = mark ∨ m.owner (.node mark) ≠ some l
    · exact ⟨m, _, fun _ => by simp only [exec, Dllist.moveBefore, if_pos hg]; rfl, h⟩
    · have ho : m.owner (.node e) = some l := by by_contra hc; exact hg (.inl hc)
      have hk : m.owner (.node mark) = some l := by by_contra hc; exact hg (.inr (.inr hc))
      obtain ⟨a, ha, da⟩ := h.before (h.ini _ _ ho) (.inr hk)
      obtain ⟨m', h4, h5⟩ := h.move ho da
      exact ⟨m', _, fun _ => by simp only [exec, Dllist.moveBefore, if_neg hg, ha, h4]; rfl, h5⟩
  | moveAfter l e mark =>
    by_cases hg : m.owner (.node e) ≠ some l ∨ e = mark ∨ m.owner (.node mark) ≠ some l
    · exact ⟨m, _, fun _ => by simp only [exec, Dllist.moveAfter, if_pos hg]; rfl, h⟩
    · have ho : m.owner (.node e) = some l := by by_contra hc; exact hg (.inl hc)
      have hk : m.owner (.node mark) = some l := by by_contra hc; exact hg (.inr (.inr hc))
      obtain ⟨m', h4, h5⟩ := h.move ho (.inr hk)
      exact ⟨m', _, fun _ => by simp only [exec, Dllist.moveAfter, if_neg hg, h4]; rfl, h5⟩
  | swap l a b =>
    obtain ⟨m', h1, h2⟩ := h.swap l a b
    exact ⟨m', _, fun _ => by simp only [exec, h1]; rfl, h2⟩
  | elRemove e =>
    have fin : ∀ {m1 : Mem T}, Sound m1 → m1.owner (.node e) = none → Sound ((m1.setNext (.node e) none).setPrev (.node e) none) := by
      intro m1 h1 ho
      have ne : ∀ l p, Mine m1 l p → p ≠ .node e := by
        rintro l p (hp | hp) rfl
        · cases hp
        · rw [ho] at hp; cases hp
      refine ⟨fun l hl => ?_, h1.rootOwner, h1.ini, h1.alloc, fun n hn => ?_, fun l hl => ?_⟩
      rotate_left
      · obtain ⟨a, b⟩ := h1.idle n hn
        simp only [Mem.setNext, Mem.setPrev, upd]
        split <;> simp [a, b]
      · simpa [Mem.setNext, Mem.setPrev, upd] using h1.zero l hl
      obtain ⟨rank, hk⟩ := h1.lk l hl
      exact ⟨rank, hk.congr (fun p hp => by simp [Mem.setNext, Mem.setPrev, upd, ne l p hp]) (fun p hp => by simp [Mem.setNext, Mem.setPrev, upd, ne l p hp]) fun _ => .rfl⟩
    cases ho : m.owner (.node e) with
    | none => exact ⟨_, _, fun _ => by simp only [exec, Dllist.elRemove, ho]; rfl, fin h ho⟩
    | some l =>
      obtain ⟨m', h3, h4, h5, _⟩ := h.remove ho
      exact ⟨_, _, fun _ => by simp only [exec, Dllist.elRemove, ho, h3]; rfl, fin h4 h5⟩
  | elInsertBefore e v =>
    cases ho : m.owner (.node e) with
    | none => exact ⟨m, _, fun _ => by simp only [exec, Dllist.elInsertBefore, ho]; rfl, h⟩
    | some l =>
      obtain ⟨a, ha, da⟩ := h.before (h.ini _ _ ho) (.inr ho)
      obtain ⟨m', h3, h4, _⟩ := h.insertValue (h.ini _ _ ho) v da
      exact ⟨m', _, fun _ => by simp only [exec, Dllist.elInsertBefore, ho, ha, h3]; rfl, h4⟩
  | elInsertAfter e v =>
    cases ho : m.owner (.node e) with
    | none => exact ⟨m, _, fun _ => by simp only [exec, Dllist.elInsertAfter, ho]; rfl, h⟩
    | some l =>
      obtain ⟨m', h3, h4, _⟩ := h.insertValue (h.ini _ _ ho) v (.inr ho)
      exact ⟨m', _, fun _ => by simp only [exec, Dllist.elInsertAfter, ho, h3]; rfl, h4⟩
  | elNext e => exact ⟨m, _, fun _ => rfl, h⟩
  | elPrev e => exact ⟨m, _, fun _ => rfl, h⟩
  | getValue e => exact ⟨m, _, fun _ => rfl, h⟩
  | setValue e v => exact ⟨_, _, fun _ => rfl, ⟨h.lk, h.rootOwner, h.ini, h.alloc, h.idle, h.zero⟩⟩
  | len l => exact ⟨m, _, fun _ => rfl, h⟩
  | front l => exact ⟨_, _, fun _ => rfl, (h.front l).1⟩
  | back l => exact ⟨_, _, fun _ => rfl, (h.back l).1⟩
  | get l i =>
    obtain ⟨m', e, h1, h2⟩ := h.get l i
    exact ⟨m', _, fun _ => by simp only [exec, h1]; rfl, h2⟩

/-! ## Any calls whatever -/

/-- The memories any calls lead to: no condition on the arguments.  Elements may be in another list or in none, be left behind by `Clear` or `Sort`,
or not exist. -/
inductive Any : Mem T → Prop
  | start : Any Mem.empty
  | call {m m' : Mem T} {op : Op T} {r : Res T} : Any m → plain op = true → exec 0 m op = some (m', r) → Any m'

theorem Any.sound (h : Any m) : Sound m := by
  induction h with
  | start => exact .empty
  | call _ hp he ih =>
    obtain ⟨m1, r1, h1, h2⟩ := ih.plain hp
    rw [h1 0] at he
    cases he
    exact h2

theorem Any.clear (h : Any m) (l : Nat) : Any (clear m l) := h.call (op := .clear l) (r := .unit) rfl rfl

theorem Any.lazyInit (h : Any m) (l : Nat) : Any (lazyInit m l) := by
  unfold Dllist.lazyInit
  split
  · exact h
  · exact h.clear l

theorem Any.front (h : Any m) (l : Nat) : Any (front m l).1 := by
  unfold Dllist.front
  split
  · exact h
  · exact h.lazyInit l

theorem Any.back (h : Any m) (l : Nat) : Any (back m l).1 := by
  unfold Dllist.back
  split
  · exact h
  · exact h.lazyInit l

theorem Any.pushBack (h : Any m) {l : Nat} {v : T} {n : Nat} (he : pushBack m l v = some (m', n)) : Any m' :=
  h.call (op := .pushBack l v) (r := .elem (some n)) rfl (by simp only [exec, he]; rfl)

theorem Any.pushFront (h : Any m) {l : Nat} {v : T} {n : Nat} (he : pushFront m l v = some (m', n)) : Any m' :=
  h.call (op := .pushFront l v) (r := .elem (some n)) rfl (by simp only [exec, he]; rfl)

theorem Any.insertAfter (h : Any m) {l mark : Nat} (ho : m.owner (.node mark) = some l) {v : T} {n : Nat} (he : insertValue m l v (some (.node mark)) = some (m', n)) : Any m' :=
  h.call (op := .insertAfter l v mark) (r := .elem (some n)) rfl (by simp only [exec, Dllist.insertAfter, ne_eq, ho, not_true_eq_false, if_false, he]; rfl)

theorem Any.new (h : Any m) : Any (new m).1 := h.call (op := .new) (r := .list (Dllist.new m).2) rfl rfl

theorem lazyInit_of (h : m.inited l = true) : lazyInit m l = m := by simp [Dllist.lazyInit, h]

theorem Any.backLoop {l : Nat} : ∀ {i : Nat} {m : Mem T} {e : Option Ptr}, Any m → m.inited l = true → pushBackListLoop l i m e = some m' → Any m'
  | 0, m, e, h, _, he => by cases he; exact h
  | i + 1, m, e, h, hi, he => by
    simp only [pushBackListLoop, Option.bind_eq_bind, Option.bind_eq_some_iff] at he
    obtain ⟨p, _, v, _, ⟨m1, n⟩, h3, h4⟩ := he
    have hb : Dllist.pushBack m l v = some (m1, n) := by simp only [Dllist.pushBack, lazyInit_of hi]; exact h3
    obtain ⟨a, ha, da⟩ := h.sound.before hi (p := .root l) (.inl rfl)
    obtain ⟨m2, h5, _, h6, _⟩ := h.sound.insertValue hi v da
    rw [ha, h5] at h3
    cases h3
    exact (h.pushBack hb).backLoop (by rw [h6]; exact hi) h4

theorem Any.frontLoop {l : Nat} : ∀ {i : Nat} {m : Mem T} {e : Option Ptr}, Any m → m.inited l = true → pushFrontListLoop l i m e = some m' → Any m'
  | 0, m, e, h, _, he => by cases he; exact h
  | i + 1, m, e, h, hi, he => by
    simp only [pushFrontListLoop, Option.bind_eq_bind, Option.bind_eq_some_iff] at he
    obtain ⟨p, _, v, _, ⟨m1, n⟩, h3, h4⟩ := he
    have hb : Dllist.pushFront m l v = some (m1, n) := by simp only [Dllist.pushFront, lazyInit_of hi]; exact h3
    obtain ⟨m2, h5, _, h6, _⟩ := h.sound.insertValue hi v (a := .root l) (.inl rfl)
    rw [h5] at h3
    cases h3
    exact (h.pushFront hb).frontLoop (by rw [h6]; exact hi) h4

theorem Any.owner_keep (h : Any m) {l mark : Nat} (ho : m.owner (.node mark) = some l) {v : T} {n : Nat} (he : insertValue m l v (some (.node mark)) = some (m', n)) :
    m'.owner (.node mark) = some l := by
  obtain ⟨m2, h5, _, _, h6⟩ := h.sound.insertValue (h.sound.ini _ _ ho) v (.inr ho)
  rw [h5] at he
  cases he
  rw [h6 _ ?_, ho]
  intro hc
  injection hc with hc
  exact Nat.lt_irrefl _ (hc ▸ h.sound.alloc _ _ ho)

theorem Any.backToLoop {l mark : Nat} : ∀ {i : Nat} {m : Mem T} {e : Option Ptr}, Any m → m.owner (.node mark) = some l → pushBackListToLoop l mark i m e = some m' → Any m'
  | 0, m, e, h, _, he => by cases he; exact h
  | i + 1, m, e, h, ho, he => by
    simp only [pushBackListToLoop, Option.bind_eq_bind, Option.bind_eq_some_iff] at he
    obtain ⟨p, _, v, _, ⟨m1, n⟩, h3, h4⟩ := he
    exact (h.insertAfter ho h3).backToLoop (h.owner_keep ho h3) h4

theorem Any.frontToLoop {l mark : Nat} : ∀ {i : Nat} {m : Mem T} {e : Option Ptr}, Any m → m.owner (.node mark) = some l → pushFrontListToLoop l mark i m e = some m' → Any m'
  | 0, m, e, h, _, he => by cases he; exact h
  | i + 1, m, e, h, ho, he => by
    simp only [pushFrontListToLoop, Option.bind_eq_bind, Option.bind_eq_some_iff] at he
    obtain ⟨p, _, v, _, ⟨m1, n⟩, h3, h4⟩ := he
    exact (h.insertAfter ho h3).frontToLoop (h.owner_keep ho h3) h4

theorem Any.rangeLoop {A : Type} {body : Mem T → A → Ptr → Option (Mem T × A × Bool)} (hb : ∀ {m a e m' a' c}, Any m → body m a e = some (m', a', c) → Any m') :
    ∀ {k : Nat} {m : Mem T} {a : A} {e : Option Ptr} {a' : A} {c : Bool}, Any m → rangeLoop body k m a e = some (m', a', c) → Any m'
  | 0, _, _, _, _, _, _, he => by cases he
  | _ + 1, m, _, none, _, _, h, he => by simp only [Dllist.rangeLoop] at he; cases he; exact h
  | k + 1, m, a, some e, a', c, h, he => by
    simp only [Dllist.rangeLoop, Option.bind_eq_bind, Option.bind_eq_some_iff] at he
    obtain ⟨⟨m1, a1, c1⟩, h1, h2⟩ := he
    cases c1 with
    | true => exact Any.rangeLoop hb (hb h h1) h2
    | false => simp at h2; obtain ⟨rfl, _⟩ := h2; exact hb h h1

theorem Any.range {A : Type} {body : Mem T → A → Ptr → Option (Mem T × A × Bool)} (hb : ∀ {m a e m' a' c}, Any m → body m a e = some (m', a', c) → Any m')
    {k : Nat} {a : A} {l : Nat} {a' : A} {c : Bool} (h : Any m) (he : range body k m a l = some (m', a', c)) : Any m' :=
  Any.rangeLoop hb (h.front l) he

theorem Any.copies {l : Nat} {m : Mem T} {e : Ptr} {a' : Unit} {c : Bool} (h : Any m)
    (he : (do let v ← value m e; let (m, _) ← Dllist.pushBack m l v; some (m, (), true)) = some (m', a', c)) : Any m' := by
  simp only [Option.bind_eq_bind, Option.bind_eq_some_iff] at he
  obtain ⟨v, _, ⟨m1, n⟩, h1, h2⟩ := he
  cases h2
  exact h.pushBack h1

theorem Any.sort {less : T → T → Bool} : ∀ {fuel : Nat} {m : Mem T} {l : Nat} {m' : Mem T}, Any m → sort less fuel m l = some m' → Any m'
  | 0, _, _, _, _, he => by cases he
  | fuel + 1, m, l, m', h, he => by
    rw [Dllist.sort] at he
    split at he
    · cases he; exact h
    simp only [Option.bind_eq_bind, Option.bind_eq_some_iff] at he
    obtain ⟨f, _, pivot, _, f', _, ⟨m1, _, _⟩, h1, m2, h2, m3, h3, ⟨m4, _, _⟩, h4, ⟨m5, _⟩, h5, ⟨m6, _, _⟩, h6, h7⟩ := he
    cases h7
    have a1 : Any m1 := by
      refine Any.rangeLoop ?_ (((h.front l).new.new).front l) h1
      intro m a e m' a' c hm hb
      simp only [Option.bind_eq_some_iff] at hb
      obtain ⟨v, _, hb⟩ := hb
      split at hb <;>
      · simp only [Option.bind_eq_some_iff] at hb
        obtain ⟨⟨_, _⟩, hb, hc⟩ := hb
        cases hc
        exact hm.pushBack hb
    have a3 : Any m3 := (a1.sort h2).sort h3
    have a4 : Any m4 := Any.range (fun hm hb => hm.copies hb) (a3.clear l) h4
    exact Any.range (fun hm hb => hm.copies hb) (a4.pushBack h5) h6

theorem lazyInit_keeps {l : Nat} (o : Nat) (h : m.inited l = true) : (lazyInit m o).inited l = true := by
  unfold lazyInit
  split
  · exact h
  · show upd m.inited o true l = true
    unfold upd
    split
    · rfl
    · exact h

/-- The calls with loops make no other memories. -/
theorem Any.exec {op : Op T} {fuel : Nat} {r : Res T} (h : Any m) (he : exec fuel m op = some (m', r)) : Any m' := by
  by_cases hp : plain op = true
  · obtain ⟨m1, r1, h1, _⟩ := h.sound.plain hp
    have := (h1 0).trans ((h1 fuel).symm.trans he)
    exact h.call hp this
  cases op with
  | slice l =>
    simp only [Dllist.exec, Dllist.slice, Option.bind_eq_bind, Option.bind_eq_some_iff] at he
    obtain ⟨⟨m1, _⟩, ⟨⟨m2, _, _⟩, h1, h2⟩, h3⟩ := he
    cases h2; cases h3
    refine Any.range ?_ h h1
    intro m a e m' a' c hm hb
    simp only [Option.bind_eq_some_iff] at hb
    obtain ⟨v, _, hb⟩ := hb
    cases hb; exact hm
  | pushBackList l o =>
    simp only [Dllist.exec, Option.bind_eq_bind, Option.bind_eq_some_iff] at he
    obtain ⟨m1, h1, h2⟩ := he
    cases h2
    refine Any.backLoop ((h.lazyInit l).front o) ?_ h1
    have hi := (h.sound.lazyInit l).2.1
    unfold Dllist.front
    split
    · exact hi
    · exact lazyInit_keeps o hi
  | pushFrontList l o =>
    simp only [Dllist.exec, Option.bind_eq_bind, Option.bind_eq_some_iff] at he
    obtain ⟨m1, h1, h2⟩ := he
    cases h2
    refine Any.frontLoop ((h.lazyInit l).back o) ?_ h1
    have hi := (h.sound.lazyInit l).2.1
    unfold Dllist.back
    split
    · exact hi
    · exact lazyInit_keeps o hi
  | pushBackListTo l o mark =>
    simp only [Dllist.exec, Option.bind_eq_bind, Option.bind_eq_some_iff] at he
    obtain ⟨m1, h1, h2⟩ := he
    cases h2
    unfold pushBackListTo at h1
    split at h1
    · cases h1; exact h
    · next ho =>
      refine Any.backToLoop (h.front o) ?_ h1
      have : (Dllist.front m o).1.owner = m.owner := by
        unfold Dllist.front
        split
        · rfl
        · exact (h.sound.lazyInit o).2.2
      rw [this]
      by_contra hc; exact ho hc
  | pushFrontListTo l o mark =>
    simp only [Dllist.exec, Option.bind_eq_bind, Option.bind_eq_some_iff] at he
    obtain ⟨m1, h1, h2⟩ := he
    cases h2
    unfold pushFrontListTo at h1
    split at h1
    · cases h1; exact h
    · next ho =>
      refine Any.frontToLoop (h.back o) ?_ h1
      have : (Dllist.back m o).1.owner = m.owner := by
        unfold Dllist.back
        split
        · rfl
        · exact (h.sound.lazyInit o).2.2
      rw [this]
      by_contra hc; exact ho hc
  | sort l less =>
    simp only [Dllist.exec, Option.bind_eq_bind, Option.bind_eq_some_iff] at he
    obtain ⟨m1, h1, h2⟩ := he
    cases h2
    exact h.sort h1
  | _ => exact absurd rfl hp

/-! ## Walks -/

/-- The elements met from `p` on, going by `step`, until it answers nil. -/
inductive Trip (step : Ptr → Option Ptr) : Ptr → List Ptr → Prop
  | last {p : Ptr} : step p = none → Trip step p [p]
  | next {p q : Ptr} {ps : List Ptr} : step p = some q → Trip step q ps → Trip step p (p :: ps)

theorem Sound.elNext_some (h : Sound m) {p q : Ptr} (hq : elNext m p = some q) :
    ∃ l n k, p = .node n ∧ q = .node k ∧ m.owner p = some l ∧ m.owner q = some l ∧ m.next p = some q ∧ m.prev q = some p := by
  unfold elNext at hq
  cases ho : m.owner p with
  | none => simp [ho] at hq
  | some l =>
    simp only [ho] at hq
    split at hq
    · cases hq
    next hr =>
    obtain ⟨rank, hk⟩ := h.lk l (h.ini _ _ ho)
    obtain ⟨q', dq, eq, c⟩ := hk.fw p (.inr ho)
    rw [hq] at eq; cases eq
    have hqr : q ≠ .root l := by rintro rfl; exact hr hq
    have hoq := dq.resolve_left hqr
    cases p with
    | root l' => rw [h.rootOwner] at ho; cases ho
    | node n =>
      cases q with
      | root l' => rw [h.rootOwner] at hoq; cases hoq
      | node k => exact ⟨l, n, k, rfl, rfl, rfl, hoq, hq, (c.resolve_left hqr).1⟩

theorem Sound.elPrev_some (h : Sound m) {p q : Ptr} (hq : elPrev m p = some q) :
    ∃ l n k, p = .node n ∧ q = .node k ∧ m.owner p = some l ∧ m.owner q = some l ∧ m.prev p = some q ∧ m.next q = some p := by
  unfold elPrev at hq
  cases ho : m.owner p with
  | none => simp [ho] at hq
  | some l =>
    simp only [ho] at hq
    split at hq
    · cases hq
    next hr =>
    obtain ⟨rank, hk⟩ := h.lk l (h.ini _ _ ho)
    obtain ⟨q', dq, eq, c⟩ := hk.bw p (.inr ho)
    rw [hq] at eq; cases eq
    have hqr : q ≠ .root l := by rintro rfl; exact hr hq
    have hoq := dq.resolve_left hqr
    cases p with
    | root l' => rw [h.rootOwner] at ho; cases ho
    | node n =>
      cases q with
      | root l' => rw [h.rootOwner] at hoq; cases hoq
      | node k => exact ⟨l, n, k, rfl, rfl, rfl, hoq, hq, c.resolve_left hqr⟩

theorem Sound.inverse (h : Sound m) (p q : Ptr) : elNext m p = some q ↔ elPrev m q = some p := by
  constructor
  · intro hq
    obtain ⟨l, n, k, rfl, rfl, _, h2, _, h4⟩ := h.elNext_some hq
    simp [elPrev, h2, h4]
  · intro hq
    obtain ⟨l, n, k, rfl, rfl, _, h2, _, h4⟩ := h.elPrev_some hq
    simp [elNext, h2, h4]

theorem Sound.rank (h : Sound m) : ∃ rank : Ptr → Nat, ∀ p q, elNext m p = some q → rank q < rank p := by
  classical
  have ex : ∀ l, ∃ rank : Ptr → Nat, m.inited l = true → Lks m.next m.prev (Mine m l) (.root l) rank := by
    intro l
    by_cases hi : m.inited l = true
    · obtain ⟨rank, hk⟩ := h.lk l hi
      exact ⟨rank, fun _ => hk⟩
    · exact ⟨fun _ => 0, fun hc => (hi hc).elim⟩
  choose R hR using ex
  refine ⟨fun p => match m.owner p with | some l => R l p | none => 0, fun p q hq => ?_⟩
  obtain ⟨l, n, k, rfl, rfl, h1, h2, h3, _⟩ := h.elNext_some hq
  simp only [h1, h2]
  obtain ⟨q', _, e, c⟩ := (hR l (h.ini _ _ h1)).fw _ (.inr h1)
  rw [h3] at e; cases e
  rcases c with c | ⟨_, c | c⟩
  · cases c
  · cases c
  · exact c

theorem Sound.tripNext (h : Sound m) (p : Ptr) : ∃ ps, Trip (elNext m) p ps ∧ ps.Nodup := by
  obtain ⟨rank, hr⟩ := h.rank
  suffices H : ∀ k p, rank p < k → ∃ ps, Trip (elNext m) p ps ∧ ps.Nodup ∧ ∀ q ∈ ps, rank q ≤ rank p by
    obtain ⟨ps, h1, h2, _⟩ := H _ p (Nat.lt_succ_self _)
    exact ⟨ps, h1, h2⟩
  intro k
  induction k with
  | zero => intro p hp; omega
  | succ k ih =>
    intro p hp
    cases hq : elNext m p with
    | none => exact ⟨[p], .last hq, by simp, by simp⟩
    | some q =>
      have := hr p q hq
      obtain ⟨ps, h1, h2, h3⟩ := ih q (by omega)
      refine ⟨p :: ps, .next hq h1, List.nodup_cons.2 ⟨fun hc => ?_, h2⟩, ?_⟩
      · have := h3 p hc; omega
      · intro x hx
        rcases List.mem_cons.1 hx with rfl | hx
        · exact Nat.le_refl _
        · have := h3 x hx; omega

theorem bound_list (f : Nat → Nat) (k : Nat) : ∃ M, ∀ n < k, f n < M := by
  induction k with
  | zero => exact ⟨0, by simp⟩
  | succ k ih =>
    obtain ⟨M, hM⟩ := ih
    refine ⟨M + f k + 1, fun n hn => ?_⟩
    by_cases hnk : n = k
    · subst hnk; omega
    · have := hM n (by omega); omega

theorem Sound.tripPrev (h : Sound m) (p : Ptr) : ∃ ps, Trip (elPrev m) p ps ∧ ps.Nodup := by
  obtain ⟨rank, hr⟩ := h.rank
  obtain ⟨M, hM⟩ := bound_list (fun n => rank (.node n)) m.fresh
  have step : ∀ p q, elPrev m p = some q → rank p < rank q ∧ rank q < M := by
    intro p q hq
    refine ⟨hr q p ((h.inverse q p).2 hq), ?_⟩
    obtain ⟨l, n, k, rfl, rfl, _, h2, _, _⟩ := h.elPrev_some hq
    exact hM k (h.alloc _ _ h2)
  suffices H : ∀ k p, M - rank p < k → ∃ ps, Trip (elPrev m) p ps ∧ ps.Nodup ∧ ∀ q ∈ ps, rank p ≤ rank q by
    obtain ⟨ps, h1, h2, _⟩ := H _ p (Nat.lt_succ_self _)
    exact ⟨ps, h1, h2⟩
  intro k
  induction k with
  | zero => intro p hp; omega
  | succ k ih =>
    intro p hp
    cases hq : elPrev m p with
    | none => exact ⟨[p], .last hq, by simp, by simp⟩
    | some q =>
      have := step p q hq
      obtain ⟨ps, h1, h2, h3⟩ := ih q (by omega)
      refine ⟨p :: ps, .next hq h1, List.nodup_cons.2 ⟨fun hc => ?_, h2⟩, ?_⟩
      · have := h3 p hc; omega
      · intro x hx
        rcases List.mem_cons.1 hx with rfl | hx
        · exact Nat.le_refl _
        · have := h3 x hx; omega

theorem Trip.range {p : Ptr} {ps : List Ptr} (h : Trip (elNext m) p ps) :
    ∀ (a : List Ptr) (fuel : Nat), ps.length < fuel → rangeLoop (fun m a e => some (m, a ++ [e], true)) fuel m a (some p) = some (m, a ++ ps, true) := by
  induction h with
  | last hp =>
    intro a fuel hf
    obtain ⟨k, rfl⟩ : ∃ k, fuel = k + 2 := ⟨fuel - 2, by simp at hf; omega⟩
    simp [rangeLoop, hp]
  | next hp _ ih =>
    intro a fuel hf
    obtain ⟨k, rfl⟩ : ∃ k, fuel = k + 1 := ⟨fuel - 1, by simp at hf; omega⟩
    simp only [rangeLoop, Option.bind_eq_bind, Option.bind_some, if_true, hp]
    rw [ih _ k (by simp at hf; omega)]
    simp

/-! ## The claims -/

/-- C140: calls without a loop come back in any state, whatever their arguments. -/
theorem C140_returns (h : Any m) {op : Op T} (hp : plain op = true) : ∃ m' r, ∀ fuel, exec fuel m op = some (m', r) := by
  obtain ⟨m', r, h1, _⟩ := h.sound.plain hp
  exact ⟨m', r, h1⟩

/-- C140: a call of any method that comes back leaves a state that calls without loops also lead to. -/
theorem C140_any (h : Any m) {op : Op T} {r : Res T} (he : MStep m op r m') : Any m' := by
  obtain ⟨F, hF⟩ := he
  exact h.exec (hF F (Nat.le_refl _))

/-- C140: in any state, going on by `Next` comes to an end and meets no element twice; so it is with `Prev`. -/
theorem C140_walk (h : Any m) (p : Ptr) : (∃ ps, Trip (elNext m) p ps ∧ ps.Nodup) ∧ ∃ ps, Trip (elPrev m) p ps ∧ ps.Nodup :=
  ⟨h.sound.tripNext p, h.sound.tripPrev p⟩

/-- C140: in any state, `Range` with a function that makes no calls comes to an end and meets no element twice. -/
theorem C140_range (h : Any m) (l : Nat) : ∃ ps : List Ptr, ps.Nodup ∧ ∃ F, ∀ fuel, F ≤ fuel →
    range (fun m a e => some (m, a ++ [e], true)) fuel m [] l = some ((front m l).1, ps, true) := by
  cases hf : (front m l).2 with
  | none =>
    refine ⟨[], by simp, 1, fun fuel hfu => ?_⟩
    obtain ⟨k, rfl⟩ : ∃ k, fuel = k + 1 := ⟨fuel - 1, by omega⟩
    simp [range, hf, rangeLoop]
  | some p =>
    obtain ⟨ps, h1, h2⟩ := (h.sound.front l).1.tripNext p
    exact ⟨ps, h2, ps.length + 1, fun fuel hfu => by simp only [range, hf]; exact h1.range [] fuel (by omega)⟩

/-- C140: in any state, `Next` and `Prev` are each other's inverse. -/
theorem C140_inverse (h : Any m) (p q : Ptr) : elNext m p = some q ↔ elPrev m q = some p := h.sound.inverse p q

/-- C140: in any state, `Front` answers nil, the list's own sentinel, or an element of this list with no `Prev`. -/
theorem C140_front (h : Any m) (l : Nat) {p : Ptr} (hp : (front m l).2 = some p) :
    p = .root l ∨ ∃ n, p = .node n ∧ (front m l).1.owner p = some l ∧ elPrev (front m l).1 p = none := by
  obtain ⟨h1, h2⟩ := h.sound.front l
  obtain ⟨hi, hm⟩ := h2 p hp
  rcases hm with rfl | hm
  · exact .inl rfl
  right
  cases p with
  | root l' => rw [h1.rootOwner] at hm; cases hm
  | node n =>
    refine ⟨n, rfl, hm, ?_⟩
    obtain ⟨rank, hk⟩ := h1.lk l hi
    obtain ⟨q, _, e, c⟩ := hk.fw _ hk.root
    have : (front m l).1.next (.root l) = some (.node n) := by
      unfold front at hp ⊢
      split at hp
      · cases hp
      · next hz => simpa [hz] using hp
    rw [this] at e; cases e
    have := (c.resolve_left (by simp)).1
    simp [elPrev, hm, this]

/-- C140: in any state, `Back` answers nil, the list's own sentinel, or an element of this list with no `Next`. -/
theorem C140_back (h : Any m) (l : Nat) {p : Ptr} (hp : (back m l).2 = some p) :
    p = .root l ∨ ∃ n, p = .node n ∧ (back m l).1.owner p = some l ∧ elNext (back m l).1 p = none := by
  obtain ⟨h1, h2⟩ := h.sound.back l
  obtain ⟨hi, hm⟩ := h2 p hp
  rcases hm with rfl | hm
  · exact .inl rfl
  right
  cases p with
  | root l' => rw [h1.rootOwner] at hm; cases hm
  | node n =>
    refine ⟨n, rfl, hm, ?_⟩
    obtain ⟨rank, hk⟩ := h1.lk l hi
    obtain ⟨q, _, e, c⟩ := hk.bw _ hk.root
    have : (back m l).1.prev (.root l) = some (.node n) := by
      unfold back at hp ⊢
      split at hp
      · cases hp
      · next hz => simpa [hz] using hp
    rw [this] at e; cases e
    have := c.resolve_left (by simp)
    simp [elNext, hm, this]

/-- C140: the calls that take a list can panic: an element put in between two left behind by `Clear` is counted but not reached from `Front` or `Back`.
The four calls that push another list count on and read the value of nil (dllist.go:175-177, 184-186, 191-193, 200-202).  The calls before all come back. -/
theorem C140_lists_panic :
    let ops : List (Op Nat) := [.new, .new, .pushBack 1 9, .pushBack 0 1, .pushBack 0 2, .clear 0, .pushBack 0 3, .insertAfter 0 4 1]
    script ops (.len 0) = some (.int 2) ∧ script ops (.front 0) = some (.elem (some 3)) ∧ script ops (.elNext 3) = some (.elem none) ∧
    script ops (.back 0) = some (.elem (some 3)) ∧ script ops (.elPrev 3) = some (.elem none) ∧
    script ops (.pushBackList 1 0) = none ∧ script ops (.pushBackListTo 1 0 0) = none ∧
    script ops (.pushFrontList 1 0) = none ∧ script ops (.pushFrontListTo 1 0 0) = none :=
  ⟨rfl, rfl, rfl, rfl, rfl, rfl, rfl, rfl, rfl⟩

/-- `(*Element).Remove()` (element.go:25-32) of the sentinel of `l`: it belongs to no list, so only its links are set to nil. -/
def rootRemove (m : Mem T) (l : Nat) : Mem T := (m.setNext (.root l) none).setPrev (.root l) none

/-- C140: a client that goes on with the sentinel meets a panic: `Front` can hand it out, and after its `Remove` a push panics. -/
theorem C140_sentinel_panic : (∃ m : Mem Nat, Any m ∧ (front m 0).2 = some (.root 0)) ∧
    ∀ (m : Mem T) (l : Nat) (v : T), Any m → m.inited l = true → m.owner (.root l) = none ∧ pushBack (rootRemove m l) l v = none ∧ pushFront (rootRemove m l) l v = none := by
  refine ⟨?_, fun m l v h hi => ⟨h.sound.rootOwner l, ?_, ?_⟩⟩
  · have h0 : Any (new (Mem.empty : Mem Nat)).1 := Any.start.new
    obtain ⟨m1, n1, h1, _⟩ := h0.sound.pushBack 0 1
    have h2 := (h0.pushBack h1).clear 0
    obtain ⟨m3, r3, h3, _⟩ := h2.sound.plain (op := .insertAfter 0 3 0) rfl
    refine ⟨m3, h2.call (op := .insertAfter 0 3 0) rfl (h3 0), ?_⟩
    have e1 : pushBack (new (Mem.empty : Mem Nat)).1 0 1 = some (m1, n1) := h1
    have e3 := h3 0
    cases e1
    cases e3
    rfl
  · simp only [pushBack, lazyInit_of (m := rootRemove m l) (l := l) hi]
    simp [rootRemove, Mem.setPrev, Mem.setNext, upd, insertValue, insert]
  · simp only [pushFront, lazyInit_of (m := rootRemove m l) (l := l) hi]
    simp [rootRemove, Mem.setPrev, Mem.setNext, upd, insertValue, insert]

/-- A state with two chains: 0 and 1 left behind by `Clear`, 2 in the list; 3 put in behind 0. -/
example : let ops : List (Op Nat) := [.new, .pushBack 0 1, .pushBack 0 2, .clear 0, .pushBack 0 3, .insertAfter 0 4 0]
    script ops (.len 0) = some (.int 2) ∧ script ops (.slice 0) = some (.vals [3]) ∧
    script ops (.elNext 0) = some (.elem (some 3)) ∧ script ops (.elNext 3) = some (.elem (some 1)) ∧ script ops (.elNext 1) = some (.elem none) ∧
    script ops (.elPrev 1) = some (.elem (some 3)) ∧
    -- exchanging elements of the two chains
    script (ops ++ [.swap 0 3 2]) (.slice 0) = some (.vals [4]) ∧ script (ops ++ [.swap 0 3 2]) (.elNext 0) = some (.elem (some 2)) ∧
    -- moving from one chain to the other: the list now shows the chain left behind
    script (ops ++ [.moveAfter 0 0 2]) (.slice 0) = some (.vals [4, 2]) ∧ script (ops ++ [.moveAfter 0 0 2]) (.elPrev 3) = some (.elem none) ∧
    -- two are counted, one is reached
    script ops (.get 0 0) = some (.elem (some 2)) ∧ script ops (.get 0 1) = some (.elem (some 2)) := ⟨rfl, rfl, rfl, rfl, rfl, rfl, rfl, rfl, rfl, rfl, rfl, rfl⟩

end Verif.Dllist
