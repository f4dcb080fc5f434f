import Verif.SyncCache.Trace
/-!
# What a thread knows at each point of its call

Positive facts about the trace, and the absence of some later events of the thread itself: both survive
the steps of other threads.
-/
namespace Verif.SyncCache
open Verif.Refresh (get_snoc get_lt get_keep get_new)
variable {K V : Type} [DecidableEq K]

/-- Changes the map. -/
def Ev.isMap : Ev K V → Prop
  | .put _ _ _ | .del _ _ _ | .wipe _ => True
  | _ => False

/-- Neither a call nor a change of the map nor a call of the function passed to `Range`. -/
def Ev.mild : Ev K V → Prop
  | .put _ _ _ | .del _ _ _ | .wipe _ | .yield _ _ _ | .call _ _ => False
  | _ => True

theorem Ev.mild.not_map {e : Ev K V} (h : e.mild) : ¬ e.isMap := by cases e <;> simp_all [Ev.mild, Ev.isMap]

/-- Thread `i` is in the call at `p`. -/
def Cur (tr : List (Ev K V)) (i p : Nat) (op : Op K V) : Prop :=
  tr[p]? = some (.call i op) ∧ ∀ (n : Nat) (op' : Op K V), p < n → tr[n]? ≠ some (.call i op')

/-- After `p` thread `i` does not change the map. -/
def NoMap (tr : List (Ev K V)) (i p : Nat) : Prop := ∀ (n : Nat) (e : Ev K V), p < n → tr[n]? = some e → e.tid = i → ¬ e.isMap

/-- Thread `i` made the entry `a` at clock `now` after `p`, and has put none since. -/
def Mine (tr : List (Ev K V)) (i p : Nat) (a : Nat) (v : V) (d : Int) : Prop :=
  ∃ n now, p < n ∧ tr[n]? = some (.mk i a v now d) ∧ ∀ (m : Nat) (k : K) (a' : Nat), n < m → tr[m]? ≠ some (.put i k a')

/-- Thread `i` found `a` for `k` at `z` and has not changed the map since. -/
def Quiet (tr : List (Ev K V)) (i z : Nat) : Prop := ∀ (n : Nat) (e : Ev K V), z ≤ n → tr[n]? = some e → e.tid = i → ¬ e.isMap

/-- The removals by `i` after `p` were of expired entries. -/
def DelsDead (tr : List (Ev K V)) (i p : Nat) : Prop :=
  ∀ (n : Nat) (k : K) (a : Nat), p < n → tr[n]? = some (.del i k a) → Dead tr i p k a

/-- The loop is done with `a` for `k`. -/
def Handled (tr : List (Ev K V)) (i p : Nat) (k : K) (a : Nat) : Kind → Prop
  | .clear => Gone tr p k a
  | .trim now => Gone tr p k a ∨ ∃ y, p < y ∧ tr[y]? = some (.seen i a) ∧ now ≤ expOf (tr.take y) a
  | .range => Gone tr p k a ∨ ∃ y, p < y ∧ tr[y]? = some (.yield i k a)

def Kind.ok : Kind → Op K V → Prop
  | .clear, op => op = .clear
  | .trim _, op => op = .tick
  | .range, op => op = .range

def KindClock (tr : List (Ev K V)) (i p : Nat) : Kind → Prop
  | .trim now => ∃ x t, p < x ∧ tr[x]? = some (.clock i t) ∧ now = ms t
  | _ => True

/-- In a loop; `cur` is what it is doing. -/
structure IterP (tr : List (Ev K V)) (i p : Nat) (op : Op K V) (it : Iter K) (cur : List (K × Nat)) : Prop where
  ok : it.kind.ok op
  clk : KindClock tr i p it.kind
  lt : p < it.start
  le : it.start ≤ tr.length
  nodup : (cur.map (·.1) ++ it.rest).Nodup
  all : ∀ k a, content (tr.take it.start) k = some a → k ∈ it.rest ∨ Handled tr i p k a it.kind ∨ (k, a) ∈ cur
  fresh : ∀ (n : Nat) (k : K) (a : Nat), p < n → tr[n]? = some (.yield i k a) → k ∉ cur.map (·.1) ++ it.rest

/-- After `p` the map held `a` for `k`, and later did not. -/
def Left (tr : List (Ev K V)) (p : Nat) (k : K) (a : Nat) : Prop :=
  ∃ z w, p < z ∧ z ≤ w ∧ w ≤ tr.length ∧ content (tr.take z) k = some a ∧ content (tr.take w) k ≠ some a

variable (c : Cfg V)

/-- Why `CompareValueAndDelete` fails. -/
def CvdNo (tr : List (Ev K V)) (i p : Nat) (k : K) (v : V) : Prop :=
  Was tr p k none ∨ ∃ a, (Dead tr i p k a ∧ Left tr p k a) ∨
    ∃ w, Live tr i p k a ∧ Made tr a w ∧ (c.eqv v w = some false ∨ c.eqv v w = some true ∧ Left tr p k a)

/-- How a call comes to its result; nothing is said about panics here. -/
def OpOut (tr : List (Ev K V)) (i p : Nat) : Op K V → Res V → Prop
  | _, .panicked => True
  | .store k v d, .unit => ∃ a m n now, p < m ∧ m < n ∧ tr[m]? = some (.mk i a v now d) ∧ tr[n]? = some (.put i k a)
  | .load k, .entry a true => Live tr i p k a
  | .load k, .nil => Was tr p k none ∨ ∃ a, Dead tr i p k a ∧ Left tr p k a
  | .loadOrStore k v d, .entry a false => ∃ m n now, p < m ∧ m < n ∧ tr[m]? = some (.mk i a v now d) ∧ tr[n]? = some (.put i k a) ∧
      content (tr.take n) k = none
  | .loadOrStore k _ _, .entry a true => Live tr i p k a ∨
      ∃ (z x y w : Nat) (now : Int), p < z ∧ z ≤ y ∧ p < x ∧ x < y ∧ y < w ∧ w ≤ tr.length ∧ content (tr.take z) k = some a ∧
        tr[x]? = some (.clock i now) ∧ tr[y]? = some (.seen i a) ∧ ms now > expOf (tr.take y) a ∧ content (tr.take w) k ≠ some a ∧
        ∀ (n : Nat) (e : Ev K V), z ≤ n → n < w → tr[n]? = some e → e.tid = i → ¬ e.isMap
  | .delete k, .unit => Was tr p k none ∨ ∃ n a, p < n ∧ tr[n]? = some (.del i k a)
  | .loadAndDelete k, .nil => Was tr p k none ∨ ∃ n a, p < n ∧ tr[n]? = some (.del i k a) ∧ Dead tr i p k a
  | .loadAndDelete k, .entry a true => ∃ n, p < n ∧ tr[n]? = some (.del i k a) ∧ Live tr i p k a
  | .compareAndDelete k a, .bool true => ∃ n, p < n ∧ tr[n]? = some (.del i k a)
  | .compareAndDelete k a, .bool false => Gone tr p k a
  | .compareValueAndDelete k v, .bool true => ∃ n a w, p < n ∧ tr[n]? = some (.del i k a) ∧ Live (tr.take n) i p k a ∧ Made tr a w ∧
      c.eqv v w = some true
  | .compareValueAndDelete k v, .bool false => DelsDead tr i p ∧ CvdNo c tr i p k v
  | .clear, .unit => ∀ k a, content (tr.take (p + 1)) k = some a → Gone tr p k a
  | .range, .unit => (∃ n, p < n ∧ tr[n]? = some (.yieldEnd i (some false))) ∨
      ∀ k a, content (tr.take (p + 1)) k = some a → Handled tr i p k a .range
  | .tick, .unit => (∃ z, p < z ∧ z ≤ tr.length ∧ regOf (tr.take z) = false) ∨
      ∃ x now, p < x ∧ tr[x]? = some (.clock i now) ∧ ∀ k a, content (tr.take (p + 1)) k = some a → Handled tr i p k a (.trim (ms now))
  | .start, .unit => ∃ n, p < n ∧ tr[n]? = some (.reg i true)
  | .close, .unit => ∃ n, p < n ∧ tr[n]? = some (.reg i false)
  | .newEntry v d, .ptr a => ∃ n now, p < n ∧ tr[n]? = some (.mk i a v now d)
  | .value a, .val v => Made tr a v
  | .isExpired a, .bool b => ∃ x y now, p < x ∧ x < y ∧ tr[x]? = some (.clock i now) ∧ tr[y]? = some (.seen i a) ∧
      b = decide (ms now > expOf (tr.take y) a)
  | .addExpiration a d, .unit => ∃ n, p < n ∧ tr[n]? = some (.addExp i a d)
  | .setExpiration a t, .unit => ∃ n, p < n ∧ tr[n]? = some (.setExp i a t)
  | _, _ => False

/-- The reading of the clock of `IsExpired`. -/
def Clk (tr : List (Ev K V)) (i p : Nat) (now : Int) : Prop := ∃ x, p < x ∧ tr[x]? = some (.clock i now)

/-- Before a check of `a`. -/
def SiteK (tr : List (Ev K V)) (i p : Nat) (op : Op K V) (k : K) (a : Nat) : Site K V → Prop
  | .load => op = .load k ∧ Was tr p k (some a) ∧ NoMap tr i p
  | .cvd v => op = .compareValueAndDelete k v ∧ Was tr p k (some a) ∧ NoMap tr i p
  | .los v d => op = .loadOrStore k v d ∧ ∃ z, p < z ∧ z ≤ tr.length ∧ content (tr.take z) k = some a ∧ Quiet tr i z
  | .lad => op = .loadAndDelete k ∧ Was tr p k (some a) ∧ ∃ n, p < n ∧ tr[n]? = some (.del i k a)
  | .range it => it.kind = .range ∧ Was tr p k (some a) ∧ IterP tr i p op it [(k, a)]

/-- Before `CompareAndDelete`. -/
def CadK (tr : List (Ev K V)) (i p : Nat) (op : Op K V) (k : K) (a : Nat) : After K V → Prop
  | .user => op = .compareAndDelete k a
  | .loadExp => op = .load k ∧ Dead tr i p k a
  | .cvdExp => (∃ v, op = .compareValueAndDelete k v) ∧ Dead tr i p k a ∧ NoMap tr i p
  | .cvd => ∃ v w, op = .compareValueAndDelete k v ∧ Live tr i p k a ∧ NoMap tr i p ∧ Made tr a w ∧ c.eqv v w = some true
  | .los k' v d a' => k' = k ∧ a' = a ∧ op = .loadOrStore k v d ∧
      ∃ (z x y : Nat) (now : Int), p < z ∧ z ≤ y ∧ p < x ∧ x < y ∧ content (tr.take z) k = some a ∧ tr[x]? = some (.clock i now) ∧
        tr[y]? = some (.seen i a) ∧ ms now > expOf (tr.take y) a ∧ Quiet tr i z
  | .iter it => IterP tr i p op it [(k, a)] ∧ (it.kind = .clear ∨ Dead tr i p k a)
  | .del | .lad _ => False

/-- After a removal. -/
def AfterK (tr : List (Ev K V)) (i p : Nat) (op : Op K V) : After K V → Prop
  | .user => ∃ k a n, op = .compareAndDelete k a ∧ p < n ∧ tr[n]? = some (.del i k a)
  | .loadExp => ∃ k a, op = .load k ∧ Dead tr i p k a ∧ Left tr p k a
  | .cvdExp => (∃ k v a, op = .compareValueAndDelete k v ∧ Dead tr i p k a ∧ Left tr p k a) ∧ DelsDead tr i p
  | .cvd => ∃ k v n a w, op = .compareValueAndDelete k v ∧ p < n ∧ tr[n]? = some (.del i k a) ∧ Live (tr.take n) i p k a ∧ Made tr a w ∧
      c.eqv v w = some true
  | .los k v d _ => op = .loadOrStore k v d
  | .iter it => IterP tr i p op it []
  | .del => ∃ k n a, op = .delete k ∧ p < n ∧ tr[n]? = some (.del i k a)
  | .lad none => ∃ k n a, op = .loadAndDelete k ∧ p < n ∧ tr[n]? = some (.del i k a) ∧ Dead tr i p k a
  | .lad (some a) => ∃ k n, op = .loadAndDelete k ∧ p < n ∧ tr[n]? = some (.del i k a) ∧ Live tr i p k a

/-- What thread `i`, in the call at `p`, knows at each point. -/
def Know (tr : List (Ev K V)) (i p : Nat) (op : Op K V) : PC K V → Prop
  | .idle => False
  | .stMk k v d => op = .store k v d
  | .stPut k a => ∃ v d, op = .store k v d ∧ Mine tr i p a v d
  | .ldGet k none => op = .load k ∧ NoMap tr i p
  | .ldGet k (some v) => op = .compareValueAndDelete k v ∧ NoMap tr i p
  | .chk k a st => SiteK tr i p op k a st
  | .chkExp k a now st => SiteK tr i p op k a st ∧ Clk tr i p now
  | .losMk k v d => op = .loadOrStore k v d
  | .losTry k v d a => op = .loadOrStore k v d ∧ Mine tr i p a v d
  | .delTry k => op = .delete k
  | .ladTry k => op = .loadAndDelete k
  | .cad k a aft => CadK c tr i p op k a aft
  | .cbCall _ aft => AfterK c tr i p op aft
  | .cbRun aft => AfterK c tr i p op aft
  | .cvEq k a v => op = .compareValueAndDelete k v ∧ Live tr i p k a ∧ NoMap tr i p
  | .clr => op = .clear ∧ ∀ (n : Nat) (k : K) (a : Nat), p < n → tr[n]? ≠ some (.yield i k a)
  | .iStart kind => kind.ok op ∧ KindClock tr i p kind ∧ ∀ (n : Nat) (k : K) (a : Nat), p < n → tr[n]? ≠ some (.yield i k a)
  | .iter it => IterP tr i p op it []
  | .tChk k a now it => it.kind = .trim now ∧ Was tr p k (some a) ∧ IterP tr i p op it [(k, a)]
  | .fCall k a it => it.kind = .range ∧ Live tr i p k a ∧ IterP tr i p op it [(k, a)]
  | .fRun it => it.kind = .range ∧ IterP tr i p op it []
  | .tkReg => op = .tick ∧ ∀ (n : Nat) (k : K) (a : Nat), p < n → tr[n]? ≠ some (.yield i k a)
  | .trNow => op = .tick ∧ (∃ z, p < z ∧ z ≤ tr.length ∧ regOf (tr.take z) = true) ∧
      ∀ (n : Nat) (k : K) (a : Nat), p < n → tr[n]? ≠ some (.yield i k a)
  | .regPut b => op = if b then .start else .close
  | .neMk v d => op = .newEntry v d
  | .valGet a => op = .value a
  | .ieNow a => op = .isExpired a
  | .ieChk a now => op = .isExpired a ∧ Clk tr i p now
  | .addE a d => op = .addExpiration a d
  | .setE a t => op = .setExpiration a t
  | .done r => OpOut c tr i p op r

/-! ## Later -/

variable {c} {tr : List (Ev K V)} {e : Ev K V} {i p : Nat} {op : Op K V} {k : K} {a : Nat}

theorem Cur.sn (h : Cur tr i p op) (he : e.tid = i → e.mild) : Cur (tr ++ [e]) i p op := by
  refine ⟨get_keep h.1, fun n op' hn hc => ?_⟩
  rcases get_snoc.1 hc with hc' | ⟨_, rfl⟩
  · exact h.2 n op' hn hc'
  · exact he rfl

theorem NoMap.sn (h : NoMap tr i p) (he : e.tid = i → e.mild) : NoMap (tr ++ [e]) i p := by
  intro n e' hn h' hi hm
  rcases get_snoc.1 h' with hc' | ⟨_, rfl⟩
  · exact h n e' hn hc' hi hm
  · exact (he hi).not_map hm

theorem Quiet.sn {z : Nat} (h : Quiet tr i z) (he : e.tid = i → e.mild) : Quiet (tr ++ [e]) i z := by
  intro n e' hn h' hi hm
  rcases get_snoc.1 h' with hc' | ⟨_, rfl⟩
  · exact h n e' hn hc' hi hm
  · exact (he hi).not_map hm

theorem Was.sn {x : Option Nat} (h : Was tr p k x) : Was (tr ++ [e]) p k x := by
  obtain ⟨z, h1, h2, h3⟩ := h
  exact ⟨z, h1, by simp; omega, by rw [take_snoc h2]; exact h3⟩

theorem Gone.sn (h : Gone tr p k a) : Gone (tr ++ [e]) p k a := by
  obtain ⟨z, h1, h2, h3⟩ := h
  exact ⟨z, h1, by simp; omega, by rw [take_snoc h2]; exact h3⟩

theorem Was.new {x : Option Nat} (hp : p < tr.length) (h : content tr k = x) : Was (tr ++ [e]) p k x :=
  ⟨tr.length, hp, by simp, by rw [take_all]; exact h⟩
theorem Gone.new (hp : p < tr.length) (h : content tr k ≠ some a) : Gone (tr ++ [e]) p k a :=
  ⟨tr.length, hp, by simp, by rw [take_all]; exact h⟩
theorem Gone.now (hp : p < tr.length) (h : content (tr ++ [e]) k ≠ some a) : Gone (tr ++ [e]) p k a :=
  ⟨tr.length + 1, by omega, by simp, by rw [take_full]; exact h⟩

theorem Checked.sn {φ : Int → Int → Prop} (h : Checked tr i p k a φ) : Checked (tr ++ [e]) i p k a φ := by
  obtain ⟨z, x, y, now, h1, h2, h3, h4, h5, h6, h7, h8⟩ := h
  have := get_lt h7
  exact ⟨z, x, y, now, h1, h2, h3, h4, by rw [take_snoc (by omega)]; exact h5, get_keep h6, get_keep h7, by rw [take_snoc (by omega)]; exact h8⟩

theorem Mine.sn {v : V} {d : Int} (h : Mine tr i p a v d) (he : e.tid = i → e.mild) : Mine (tr ++ [e]) i p a v d := by
  obtain ⟨n, now, h1, h2, h3⟩ := h
  refine ⟨n, now, h1, get_keep h2, fun m k a' hm hc => ?_⟩
  rcases get_snoc.1 hc with hc' | ⟨_, rfl⟩
  · exact h3 m k a' hm hc'
  · exact he rfl

theorem DelsDead.sn (h : DelsDead tr i p) (he : e.tid = i → e.mild) : DelsDead (tr ++ [e]) i p := by
  intro n k a hn hc
  rcases get_snoc.1 hc with hc' | ⟨_, rfl⟩
  · exact (h n k a hn hc').sn
  · exact (he rfl).elim

theorem Left.sn (h : Left tr p k a) : Left (tr ++ [e]) p k a := by
  obtain ⟨z, w, h1, h2, h3, h4, h5⟩ := h
  exact ⟨z, w, h1, h2, by simp; omega, by rw [take_snoc (by omega)]; exact h4, by rw [take_snoc h3]; exact h5⟩

theorem CvdNo.sn {v : V} (h : CvdNo c tr i p k v) : CvdNo c (tr ++ [e]) i p k v := by
  rcases h with h | ⟨a, ⟨h1, h2⟩ | ⟨w, h1, h2, h3⟩⟩
  · exact .inl h.sn
  · exact .inr ⟨a, .inl ⟨h1.sn, h2.sn⟩⟩
  · exact .inr ⟨a, .inr ⟨w, h1.sn, h2.snoc, h3.imp id fun h => ⟨h.1, h.2.sn⟩⟩⟩

theorem NoMap.dels (h : NoMap tr i p) : DelsDead tr i p := fun n k a hn hc => absurd trivial (h n _ hn hc rfl)

theorem Handled.sn {kind : Kind} (h : Handled tr i p k a kind) : Handled (tr ++ [e]) i p k a kind := by
  cases kind with
  | clear => exact Gone.sn h
  | trim now =>
    rcases h with h | ⟨y, h1, h2, h3⟩
    · exact .inl h.sn
    · exact .inr ⟨y, h1, get_keep h2, by rw [take_snoc (Nat.le_of_lt (get_lt h2))]; exact h3⟩
  | range =>
    rcases h with h | ⟨y, h1, h2⟩
    · exact .inl h.sn
    · exact .inr ⟨y, h1, get_keep h2⟩

theorem Handled.of_gone {kind : Kind} (h : Gone tr p k a) : Handled tr i p k a kind := by
  cases kind with
  | clear => exact h
  | trim now => exact .inl h
  | range => exact .inl h

theorem KindClock.sn {kind : Kind} (h : KindClock tr i p kind) : KindClock (tr ++ [e]) i p kind := by
  cases kind with
  | trim now => obtain ⟨x, t, h1, h2, h3⟩ := h; exact ⟨x, t, h1, get_keep h2, h3⟩
  | _ => trivial

theorem IterP.sn' {it : Iter K} {cur : List (K × Nat)} (h : IterP tr i p op it cur) (he : ∀ k a, e ≠ .yield i k a) :
    IterP (tr ++ [e]) i p op it cur := by
  refine ⟨h.ok, h.clk.sn, h.lt, by have := h.le; simp; omega, h.nodup, ?_, ?_⟩
  · intro k a hc
    rw [take_snoc h.le] at hc
    rcases h.all k a hc with h1 | h1 | h1
    · exact .inl h1
    · exact .inr (.inl h1.sn)
    · exact .inr (.inr h1)
  · intro n k a hn hc
    rcases get_snoc.1 hc with hc' | ⟨_, h'⟩
    · exact h.fresh n k a hn hc'
    · exact absurd h'.symm (he k a)

theorem IterP.sn {it : Iter K} {cur : List (K × Nat)} (h : IterP tr i p op it cur) (he : e.tid = i → e.mild) :
    IterP (tr ++ [e]) i p op it cur := h.sn' (by rintro k a rfl; exact he rfl)

theorem Clk.sn {now : Int} (h : Clk tr i p now) : Clk (tr ++ [e]) i p now := by
  obtain ⟨x, h1, h2⟩ := h; exact ⟨x, h1, get_keep h2⟩

theorem noYield_sn (h : ∀ (n : Nat) (k : K) (a : Nat), p < n → tr[n]? ≠ some (.yield i k a)) (he : e.tid = i → e.mild) :
    ∀ (n : Nat) (k : K) (a : Nat), p < n → (tr ++ [e])[n]? ≠ some (.yield i k a) := by
  intro n k a hn hc
  rcases get_snoc.1 hc with hc' | ⟨_, rfl⟩
  · exact h n k a hn hc'
  · exact he rfl

theorem SiteK.sn {st : Site K V} (h : SiteK tr i p op k a st) (he : e.tid = i → e.mild) : SiteK (tr ++ [e]) i p op k a st := by
  cases st with
  | load => exact ⟨h.1, h.2.1.sn, h.2.2.sn he⟩
  | cvd v => exact ⟨h.1, h.2.1.sn, h.2.2.sn he⟩
  | los v d =>
    obtain ⟨h0, z, h1, h2, h3, h4⟩ := h
    exact ⟨h0, z, h1, by simp; omega, by rw [take_snoc h2]; exact h3, h4.sn he⟩
  | lad =>
    obtain ⟨h0, h1, n, h2, h3⟩ := h
    exact ⟨h0, h1.sn, n, h2, get_keep h3⟩
  | range it => exact ⟨h.1, h.2.1.sn, h.2.2.sn he⟩

theorem CadK.sn {aft : After K V} (h : CadK c tr i p op k a aft) (he : e.tid = i → e.mild) : CadK c (tr ++ [e]) i p op k a aft := by
  cases aft with
  | user => exact h
  | loadExp => exact ⟨h.1, h.2.sn⟩
  | cvdExp => exact ⟨h.1, h.2.1.sn, h.2.2.sn he⟩
  | cvd => obtain ⟨v, w, h1, h2, h3, h4, h5⟩ := h; exact ⟨v, w, h1, h2.sn, h3.sn he, h4.snoc, h5⟩
  | los k' v d a' =>
    obtain ⟨h1, h2, h3, z, x, y, now, a1, a2, a3, a4, a5, a6, a7, a8, a9⟩ := h
    have := get_lt a7
    exact ⟨h1, h2, h3, z, x, y, now, a1, a2, a3, a4, by rw [take_snoc (by omega)]; exact a5, get_keep a6, get_keep a7,
      by rw [take_snoc (by omega)]; exact a8, a9.sn he⟩
  | iter it => exact ⟨h.1.sn he, h.2.imp_right Checked.sn⟩
  | del => exact h.elim
  | lad _ => exact h.elim

theorem AfterK.sn {aft : After K V} (h : AfterK c tr i p op aft) (he : e.tid = i → e.mild) : AfterK c (tr ++ [e]) i p op aft := by
  cases aft with
  | user => obtain ⟨k, a, n, h1, h2, h3⟩ := h; exact ⟨k, a, n, h1, h2, get_keep h3⟩
  | loadExp => obtain ⟨k, a, h1, h2, h3⟩ := h; exact ⟨k, a, h1, h2.sn, h3.sn⟩
  | cvdExp => obtain ⟨⟨k, v, a, h1, h2, h3⟩, h4⟩ := h; exact ⟨⟨k, v, a, h1, h2.sn, h3.sn⟩, h4.sn he⟩
  | cvd =>
    obtain ⟨k, v, n, a, w, h1, h2, h3, h4, h5, h6⟩ := h
    exact ⟨k, v, n, a, w, h1, h2, get_keep h3, by rw [take_snoc (Nat.le_of_lt (get_lt h3))]; exact h4, h5.snoc, h6⟩
  | los k v d a => exact h
  | iter it => exact IterP.sn h he
  | del => obtain ⟨k, n, a, h1, h2, h3⟩ := h; exact ⟨k, n, a, h1, h2, get_keep h3⟩
  | lad r =>
    cases r with
    | none => obtain ⟨k, n, a, h1, h2, h3, h4⟩ := h; exact ⟨k, n, a, h1, h2, get_keep h3, h4.sn⟩
    | some a => obtain ⟨k, n, h1, h2, h3, h4⟩ := h; exact ⟨k, n, h1, h2, get_keep h3, h4.sn⟩

theorem OpOut.sn {r : Res V} (h : OpOut c tr i p op r) (hp : p < tr.length) (he : e.tid = i → e.mild) : OpOut c (tr ++ [e]) i p op r := by
  have ht : (tr ++ [e]).take (p + 1) = tr.take (p + 1) := take_snoc hp
  unfold OpOut at h ⊢
  split at h
  · trivial
  · obtain ⟨a, m, n, now, h1, h2, h3, h4⟩ := h; exact ⟨a, m, n, now, h1, h2, get_keep h3, get_keep h4⟩
  · exact h.sn
  · rcases h with h | ⟨a, h, h'⟩
    · exact .inl h.sn
    · exact .inr ⟨a, h.sn, h'.sn⟩
  · obtain ⟨m, n, now, h1, h2, h3, h4, h5⟩ := h
    exact ⟨m, n, now, h1, h2, get_keep h3, get_keep h4, by rw [take_snoc (Nat.le_of_lt (get_lt h4))]; exact h5⟩
  · rcases h with h | ⟨z, x, y, w, now, a1, a2, a3, a4, a5, a6, a7, a8, a9, b1, b2, b3⟩
    · exact .inl h.sn
    · refine .inr ⟨z, x, y, w, now, a1, a2, a3, a4, a5, by simp; omega, by rw [take_snoc (by omega)]; exact a7, get_keep a8, get_keep a9,
        by rw [take_snoc (by omega)]; exact b1, by rw [take_snoc (by omega)]; exact b2, ?_⟩
      intro n e' hz hn hc
      rcases get_snoc.1 hc with hc' | ⟨h', rfl⟩
      · exact b3 n e' hz hn hc'
      · omega
  · rcases h with h | ⟨n, a, h, h'⟩
    · exact .inl h.sn
    · exact .inr ⟨n, a, h, get_keep h'⟩
  · rcases h with h | ⟨n, a, h, h', h''⟩
    · exact .inl h.sn
    · exact .inr ⟨n, a, h, get_keep h', h''.sn⟩
  · obtain ⟨n, h1, h2, h3⟩ := h; exact ⟨n, h1, get_keep h2, h3.sn⟩
  · obtain ⟨n, h1, h2⟩ := h; exact ⟨n, h1, get_keep h2⟩
  · exact h.sn
  · obtain ⟨n, a, w, h1, h2, h3, h4, h5⟩ := h
    exact ⟨n, a, w, h1, get_keep h2, by rw [take_snoc (Nat.le_of_lt (get_lt h2))]; exact h3, h4.snoc, h5⟩
  · exact ⟨h.1.sn he, h.2.sn⟩
  · intro k a hc; rw [ht] at hc; exact (h k a hc).sn
  · rcases h with ⟨n, h, h'⟩ | h
    · exact .inl ⟨n, h, get_keep h'⟩
    · exact .inr fun k a hc => by rw [ht] at hc; exact (h k a hc).sn
  · rcases h with ⟨z, h1, h2, h3⟩ | ⟨x, now, h1, h2, h3⟩
    · exact .inl ⟨z, h1, by simp; omega, by rw [take_snoc h2]; exact h3⟩
    · exact .inr ⟨x, now, h1, get_keep h2, fun k a hc => by rw [ht] at hc; exact (h3 k a hc).sn⟩
  · obtain ⟨n, h1, h2⟩ := h; exact ⟨n, h1, get_keep h2⟩
  · obtain ⟨n, h1, h2⟩ := h; exact ⟨n, h1, get_keep h2⟩
  · obtain ⟨n, now, h1, h2⟩ := h; exact ⟨n, now, h1, get_keep h2⟩
  · exact h.snoc
  · obtain ⟨x, y, now, h1, h2, h3, h4, h5⟩ := h
    exact ⟨x, y, now, h1, h2, get_keep h3, get_keep h4, by rw [take_snoc (Nat.le_of_lt (get_lt h4))]; exact h5⟩
  · obtain ⟨n, h1, h2⟩ := h; exact ⟨n, h1, get_keep h2⟩
  · obtain ⟨n, h1, h2⟩ := h; exact ⟨n, h1, get_keep h2⟩
  · exact h.elim

theorem Know.sn {pc : PC K V} (h : Know c tr i p op pc) (hp : p < tr.length) (he : e.tid = i → e.mild) : Know c (tr ++ [e]) i p op pc := by
  cases pc
  case stPut => obtain ⟨v, d, h1, h2⟩ := h; exact ⟨v, d, h1, h2.sn he⟩
  case ldGet k x => cases x <;> exact ⟨h.1, h.2.sn he⟩
  case chk => exact SiteK.sn h he
  case chkExp => exact ⟨h.1.sn he, h.2.sn⟩
  case losTry => exact ⟨h.1, h.2.sn he⟩
  case cad => exact CadK.sn h he
  case cbCall => exact AfterK.sn h he
  case cbRun => exact AfterK.sn h he
  case cvEq => exact ⟨h.1, h.2.1.sn, h.2.2.sn he⟩
  case iStart => exact ⟨h.1, h.2.1.sn, noYield_sn h.2.2 he⟩
  case iter => exact IterP.sn h he
  case tChk => exact ⟨h.1, h.2.1.sn, h.2.2.sn he⟩
  case fCall => exact ⟨h.1, h.2.1.sn, h.2.2.sn he⟩
  case fRun => exact ⟨h.1, h.2.sn he⟩
  case ieChk => exact ⟨h.1, h.2.sn⟩
  case clr => exact ⟨h.1, noYield_sn h.2 he⟩
  case tkReg => exact ⟨h.1, noYield_sn h.2 he⟩
  case trNow =>
    obtain ⟨h0, ⟨z, h1, h2, h3⟩, h4⟩ := h
    exact ⟨h0, ⟨z, h1, by simp; omega, by rw [take_snoc h2]; exact h3⟩, noYield_sn h4 he⟩
  case done => exact OpOut.sn h hp he
  all_goals exact h

end Verif.SyncCache
