import Verif.RWMap.Ends
import Verif.RWMap.Miss
/-!
# How many steps a call of RWMap makes (C132)
-/
namespace Verif.RWMap
variable {K V : Type} [DecidableEq K] [Inhabited V]
variable {eqv : V → V → Option Bool} {prog : Nat → Op K V}

/-- An execution in which call `i` has made `n` steps; `c` of the steps of the other calls changed an entry while `i` was in progress. -/
inductive Turns (eqv : V → V → Option Bool) (prog : Nat → Op K V) (i : Nat) : Nat → Nat → List (Ev K V) → State K V → Prop
  | init : Turns eqv prog i 0 0 [] State.init
  | own {n c h s ord go s'} : Turns eqv prog i n c h s → (∀ l : List (K × Nat), (ord l).Perm l) → next eqv prog ord go s i = some s' →
      Turns eqv prog i (n + 1) c (h ++ event prog s i) s'
  | other {n c h s j ord go s'} : Turns eqv prog i n c h s → j ≠ i → (∀ l : List (K × Nat), (ord l).Perm l) → next eqv prog ord go s j = some s' →
      s'.sh.ent = s.sh.ent ∨ s.pc i = .idle → Turns eqv prog i n c (h ++ event prog s j) s'
  | change {n c h s j ord go s'} : Turns eqv prog i n c h s → j ≠ i → (∀ l : List (K × Nat), (ord l).Perm l) → next eqv prog ord go s j = some s' →
      Turns eqv prog i n (c + 1) (h ++ event prog s j) s'

theorem Turns.exec {i n c : Nat} {h : List (Ev K V)} {s : State K V} (ht : Turns eqv prog i n c h s) : Exec eqv prog h s := by
  induction ht with
  | init => exact .init
  | own _ h1 h2 ih => exact .step ih ⟨_, _, _, h1, h2, rfl⟩
  | other _ _ h1 h2 _ ih => exact .step ih ⟨_, _, _, h1, h2, rfl⟩
  | change _ _ h1 h2 ih => exact .step ih ⟨_, _, _, h1, h2, rfl⟩

/-- All executions can be counted. -/
theorem Exec.turns (i : Nat) {h : List (Ev K V)} {s : State K V} (hx : Exec eqv prog h s) : ∃ n c, Turns eqv prog i n c h s := by
  induction hx with
  | init => exact ⟨0, 0, .init⟩
  | step _ hs ih =>
    obtain ⟨n, c, ht⟩ := ih
    obtain ⟨j, ord, go, h1, h2, rfl⟩ := hs
    by_cases hj : j = i
    · subst hj; exact ⟨_, _, .own ht h1 h2⟩
    · exact ⟨_, _, .change ht hj h1 h2⟩

/-- Steps that a call may still have to make. -/
def weight (N : Nat) (op : Op K V) (ent : Nat → Ptr) : PC K V → Nat
  | .idle => if op.adds then 2 * N + 12 else match op with | .range => N + 8 | _ => 10
  | .start => if op.adds then 2 * N + 11 else match op with | .range => N + 7 | _ => 9
  | .acq => if op.adds then 2 * N + 9 else match op with | .range => N + 6 | _ => 8
  | .crit => if op.adds then 2 * N + 8 else match op with | .range => N + 5 | _ => 7
  | .ent _ lk => if op.early lk then 2 * N + 10 else match lk with | .u => 4 | _ => 6
  | .cas e lk p => (if op.early lk then 2 * N + 9 else match lk with | .u => 3 | _ => 5) + if ent e = p then 0 else 2
  | .unexp _ => 7
  | .swp _ => 4
  | .copy0 _ => 2 * N + 6
  | .copy es _ => 2 * es.length + 5
  | .expunge es _ => 2 * es.length + 4 + match es with | (_, e) :: _ => if ent e = .nil then 0 else 2 | [] => 0
  | .amend _ => 4
  | .wipe => 5
  | .zero => 4
  | .unl (.ent _) => if op.early .u then 2 * N + 11 else 5
  | .unl (.rng m) => m.length + 3
  | .unl (.res _) => 3
  | .promo (.ent _) => if op.early .u then 2 * N + 12 else 6
  | .promo (.rng m) => m.length + 4
  | .promo (.res _) => 4
  | .rng es _ => es.length + 2
  | .add _ _ => 2
  | .fin _ => 1
  | .done _ | .panic => 0

theorem weight_finish (N : Nat) (op op' : Op K V) (ent : Nat → Ptr) (r : Res K V) : weight N op ent (finish op' r) ≤ 2 := by
  unfold finish; split <;> simp [weight]

theorem weight_after (N : Nat) (op op' : Op K V) (ent : Nat → Ptr) (h : Sh K) (lk : Lk) (r : Res K V) :
    weight N op ent (after h op' lk r).2 ≤ if lk = .u then 2 else if lk = .l then 3 else 4 := by
  cases lk with
  | u => exact weight_finish N op op' ent r
  | l => simp [after, weight]
  | lm => simp only [after, missLocked]; split <;> simp [weight]

theorem weight_after_lt (N : Nat) (op op' : Op K V) (ent ent' : Nat → Ptr) (h : Sh K) (lk : Lk) (r : Res K V) (e : Nat) (p : Ptr) :
    weight N op ent (after h op' lk r).2 < weight N op ent' (.cas e lk p) ∧ weight N op ent (after h op' lk r).2 < weight N op ent' (.ent e lk) := by
  have := weight_after N op op' ent h lk r
  constructor
  · refine Nat.lt_of_le_of_lt this ?_
    cases lk <;> simp only [weight, if_true, reduceCtorEq, if_false] <;> (repeat' split) <;> omega
  · refine Nat.lt_of_le_of_lt this ?_
    cases lk <;> simp only [weight, if_true, reduceCtorEq, if_false] <;> (repeat' split) <;> omega

theorem weight_raise (N : Nat) (op op' : Op K V) (ent ent' : Nat → Ptr) (h : Sh K) (lk : Lk) (r : Res K V) (e : Nat) :
    weight N op ent (after h op' lk.raise r).2 < weight N op ent' (.ent e lk) := by
  have := weight_after N op op' ent h lk.raise r
  refine Nat.lt_of_le_of_lt this ?_
  cases lk <;> simp only [weight, Lk.raise, if_true, reduceCtorEq, if_false] <;> (repeat' split) <;> omega

theorem weight_cas (N : Nat) (op : Op K V) (ent : Nat → Ptr) (e : Nat) (lk : Lk) (p : Ptr) (h : ent e = p) :
    weight N op ent (.cas e lk p) < weight N op ent (.ent e lk) := by
  cases lk <;> simp only [weight, h, if_true] <;> split <;> omega

theorem weight_own {N : Nat} {s s' : State K V} {i : Nat} {ord : List (K × Nat) → List (K × Nat)} {go : Bool} (hord : ∀ l, (ord l).Perm l)
    (h : next eqv prog ord go s i = some s') (hr : s.sh.read.m.length ≤ N) (hd : s.sh.dl.length ≤ N) :
    weight N (prog i) s'.sh.ent (s'.pc i) < weight N (prog i) s.sh.ent (s.pc i) := by
  have hlen : ∀ l, (ord l).length = l.length := fun l => (hord l).length_eq
  simp only [next] at h
  generalize s.pc i = c at h
  cases c with
  | idle =>
    simp only [Option.some.injEq] at h; subst h
    simp only [State.goto, if_true, weight]
    repeat' split
    all_goals omega
  | start =>
    simp only [Option.some.injEq] at h; subst h
    simp only [State.goto, if_true]
    unfold startStep
    cases prog i <;> simp only <;> repeat' split
    all_goals simp [weight, Op.adds, Op.early, hlen]
    all_goals omega
  | acq =>
    dsimp only at h
    split at h
    · simp only [Option.some.injEq] at h; subst h
      simp only [State.goto, if_true, weight]
      repeat' split
      all_goals omega
    · cases h
  | crit =>
    simp only [Option.some.injEq] at h; subst h
    simp only [State.goto, if_true]
    simp only [Sh.dl] at hd
    unfold critStep putNew missLocked
    cases prog i <;> simp only <;> repeat' split
    all_goals simp [weight, Op.adds, Op.early]
    all_goals omega
  | ent e lk =>
    simp only [Option.some.injEq] at h; subst h
    simp only [State.goto, if_true]
    unfold entStep
    simp only
    repeat' split
    all_goals first
      | exact (weight_after_lt _ _ _ _ _ _ _ _ _ .nil).2
      | exact weight_raise _ _ _ _ _ _ _ _ _
      | exact weight_cas _ _ _ _ _ _ (by first | rfl | assumption)
      | (simp_all [weight, Op.early, Op.adds]; done)
      | (cases lk <;> simp_all [weight, Op.early, Op.adds] <;> (repeat' split) <;> omega)
  | cas e lk p =>
    simp only [Option.some.injEq] at h; subst h
    simp only [State.goto, if_true]
    unfold casStep
    split
    · split
      all_goals first
        | exact (weight_after_lt _ _ _ _ _ _ _ _ _ _).1
        | (cases lk <;> simp_all [weight, Op.early])
    · rename_i hp
      cases lk <;> simp only [weight, if_neg hp] <;> split <;> omega
  | unexp e =>
    simp only [Option.some.injEq] at h; subst h
    simp only [State.goto, if_true]
    unfold unexpStep
    simp only
    repeat' split
    all_goals simp_all [weight, Op.early]
  | swp e =>
    simp only [Option.some.injEq] at h; subst h
    simp only [State.goto, if_true]
    unfold swpStep
    split <;> simp [weight]
  | copy0 rm =>
    dsimp only at h
    split at h <;> simp only [Option.some.injEq] at h <;> subst h <;> simp [State.goto, weight, hlen] <;> omega
  | copy es rm =>
    cases es with
    | nil =>
      simp only [Option.some.injEq] at h; subst h
      simp [State.goto, weight]
    | cons x es =>
      dsimp only at h
      split at h <;> simp only [Option.some.injEq] at h <;> subst h
      · rename_i hp
        simp [State.goto, weight, hp]
      · simp [State.goto, weight]
      · simp [State.goto, weight]
  | expunge es rm =>
    cases es with
    | nil => cases h
    | cons x es =>
      dsimp only at h
      split at h <;> simp only [Option.some.injEq] at h <;> subst h
      · rename_i hp
        simp [State.goto, weight, hp]; omega
      · rename_i hp
        simp [State.goto, weight, hp]
  | amend rm =>
    dsimp only at h
    split at h <;> simp only [Option.some.injEq] at h <;> subst h
    · simp [State.goto, weight]
    · simp only [State.goto, if_true]
      unfold putNew
      split <;> simp [weight]
  | promo nx =>
    simp only [Option.some.injEq] at h; subst h
    cases nx <;> simp [State.goto, weight]
    split <;> omega
  | wipe =>
    simp only [Option.some.injEq] at h; subst h
    simp [State.goto, weight]
  | zero =>
    simp only [Option.some.injEq] at h; subst h
    simp [State.goto, weight]
  | unl nx =>
    cases nx with
    | ent e =>
      simp only [Option.some.injEq] at h; subst h
      simp only [State.goto, if_true, weight]
      split <;> omega
    | rng m =>
      simp only [Option.some.injEq] at h; subst h
      simp [State.goto, weight, hlen]
    | res r =>
      simp only [Option.some.injEq] at h; subst h
      simp only [State.goto, if_true]
      exact Nat.lt_of_le_of_lt (weight_finish _ _ _ _ _) (by simp [weight])
  | rng es acc =>
    cases es with
    | nil =>
      simp only [Option.some.injEq] at h; subst h
      simp [State.goto, weight]
    | cons x es =>
      dsimp only at h
      split at h
      · simp only [Option.some.injEq] at h; subst h
        simp [State.goto, weight]
      · split at h <;> simp only [Option.some.injEq] at h <;> subst h
        · simp [State.goto, weight]
        · simp [State.goto, weight]
  | add d r =>
    simp only [Option.some.injEq] at h; subst h
    simp [State.goto, weight]
  | fin r =>
    simp only [Option.some.injEq] at h; subst h
    simp [State.goto, weight]
  | done r => cases h
  | panic => cases h

theorem weight_other (N : Nat) (op : Op K V) (ent ent' : Nat → Ptr) (c : PC K V) : weight N op ent' c ≤ weight N op ent c + 2 := by
  cases c <;> simp only [weight] <;> (repeat' split) <;> omega

/-- The maps are no larger than the number of keys ever stored. -/
theorem sizes {h : List (Ev K V)} {s : State K V} (hx : Exec eqv prog h s) {ks : List K}
    (hks : ∀ i k v, .inv i ∈ h → prog i = .swap k v ∨ prog i = .loadOrStore k v → k ∈ ks) :
    s.sh.read.m.length ≤ ks.length ∧ s.sh.dl.length ≤ ks.length := by
  obtain ⟨g, I, _⟩ := exec_inv hx
  have key : ∀ k, aget s.sh.dl k ≠ none ∨ aget s.sh.read.m k ≠ none → k ∈ ks := by
    intro k hk
    obtain ⟨c', h1, h2, h3⟩ := exec_keys hx k hk
    cases hop : prog c' <;> rw [hop] at h2 h3 <;> cases h2 <;> cases h3
    · exact hks c' _ _ h1 (Or.inl hop)
    · exact hks c' _ _ h1 (Or.inr hop)
  constructor
  · have := (List.subperm_of_subset (show (s.sh.read.m.map (·.1)).Nodup from I.str.core.rwf)
      (fun k hk => key k (Or.inr fun h => aget_eq_none.1 h hk))).length_le
    simpa using this
  · have hnd : (s.sh.dl.map (·.1)).Nodup := by
      unfold Sh.dl
      cases hd : s.sh.dirty with
      | none => simp
      | some d => exact I.str.core.dwf d hd
    have := (List.subperm_of_subset hnd (fun k hk => key k (Or.inl fun h => aget_eq_none.1 h hk))).length_le
    simpa using this

theorem turns_le {i n c : Nat} {h : List (Ev K V)} {s : State K V} (ht : Turns eqv prog i n c h s) {ks : List K}
    (hks : ∀ i k v, .inv i ∈ h → prog i = .swap k v ∨ prog i = .loadOrStore k v → k ∈ ks) :
    n + weight ks.length (prog i) s.sh.ent (s.pc i) ≤ weight ks.length (prog i) (fun _ => .nil) .idle + 2 * c := by
  induction ht with
  | init => simp [State.init]
  | own ht h1 h2 ih =>
    have hk := fun i k v hi => hks i k v (List.mem_append_left _ hi)
    have a := ih hk
    have b := weight_own h1 h2 (sizes ht.exec hk).1 (sizes ht.exec hk).2
    omega
  | other ht hj h1 h2 he ih =>
    have a := ih fun i k v hi => hks i k v (List.mem_append_left _ hi)
    rw [next_other h2 (Ne.symm hj)]
    rcases he with he | he
    · rw [he]; exact a
    · rw [he] at a ⊢; exact a
  | @change n c h s j ord go s' ht hj h1 h2 ih =>
    have a := ih fun i k v hi => hks i k v (List.mem_append_left _ hi)
    rw [next_other h2 (Ne.symm hj)]
    have := weight_other ks.length (prog i) s.sh.ent s'.sh.ent (s.pc i)
    omega

/-- Steps left for the calls that do not loop around a compare-and-swap. -/
def left (N : Nat) : Op K V → PC K V → Option Nat
  | .load _, .idle => some 8
  | .load _, .start => some 7
  | .load _, .acq => some 6
  | .load _, .crit => some 5
  | .load _, .promo (.ent _) | .load _, .promo (.res _) => some 4
  | .load _, .unl (.ent _) | .load _, .unl (.res _) => some 3
  | .load _, .ent _ .u => some 2
  | .clear, .idle => some 8
  | .clear, .start => some 7
  | .clear, .acq => some 6
  | .clear, .crit => some 5
  | .clear, .wipe => some 4
  | .clear, .zero => some 3
  | .clear, .unl (.res _) => some 2
  | .len, .idle => some 3
  | .len, .start => some 2
  | .range, .idle => some (N + 8)
  | .range, .start => some (N + 7)
  | .range, .acq => some (N + 6)
  | .range, .crit => some (N + 5)
  | .range, .promo (.rng m) => some (m.length + 4)
  | .range, .unl (.rng m) => some (m.length + 3)
  | .range, .rng es _ => some (es.length + 2)
  | .load _, .fin _ | .clear, .fin _ | .len, .fin _ | .range, .fin _ => some 1
  | .load _, .done _ | .clear, .done _ | .len, .done _ | .range, .done _ => some 0
  | _, _ => none

theorem left_own {N : Nat} {s s' : State K V} {i a : Nat} {ord : List (K × Nat) → List (K × Nat)} {go : Bool} (hord : ∀ l, (ord l).Perm l)
    (h : next eqv prog ord go s i = some s') (hr : s.sh.read.m.length ≤ N) (hd : s.sh.dl.length ≤ N)
    (hl : left N (prog i) (s.pc i) = some a) : ∃ b, left N (prog i) (s'.pc i) = some b ∧ b < a := by
  have hlen : ∀ l, (ord l).length = l.length := fun l => (hord l).length_eq
  simp only [Sh.dl] at hd
  simp only [next] at h
  generalize s.pc i = c at h hl
  cases hop : prog i <;> rw [hop] at hl h <;> cases c
  all_goals first
    | (simp only [left, reduceCtorEq] at hl; done)
    | skip
  all_goals first
    | (cases h; done)
    | (simp only [left, Option.some.injEq] at hl; subst hl
       simp only [Option.some.injEq] at h; subst h
       simp only [goto_pc_self, startStep, critStep, missLocked]
       (repeat' split) <;> (try simp [left, hlen]) <;> omega)
    | (simp only [left, Option.some.injEq] at hl; subst hl
       dsimp only at h
       split at h
       · simp only [Option.some.injEq] at h; subst h
         simp [left]
       · cases h)
    | (rename_i x
       cases x <;> first
         | (simp only [left, reduceCtorEq] at hl; done)
         | (simp only [left, Option.some.injEq] at hl; subst hl
            simp only [Option.some.injEq] at h; subst h
            simp [left, finish, entStep, after, hlen]; done))
    | (rename_i es acc
       simp only [left, Option.some.injEq] at hl; subst hl
       cases es with
       | nil =>
         simp only [Option.some.injEq] at h; subst h
         simp [left]
       | cons x es =>
         dsimp only at h
         split at h
         · simp only [Option.some.injEq] at h; subst h
           simp [left]
         · split at h <;> simp only [Option.some.injEq] at h <;> subst h <;> simp [left])

theorem turns_left {i n c b : Nat} {h : List (Ev K V)} {s : State K V} (ht : Turns eqv prog i n c h s) {ks : List K}
    (hks : ∀ i k v, .inv i ∈ h → prog i = .swap k v ∨ prog i = .loadOrStore k v → k ∈ ks) (hb : left ks.length (prog i) .idle = some b) :
    ∃ a, left ks.length (prog i) (s.pc i) = some a ∧ n + a ≤ b := by
  induction ht with
  | init => exact ⟨b, hb, by omega⟩
  | own ht h1 h2 ih =>
    have hk := fun i k v hi => hks i k v (List.mem_append_left _ hi)
    obtain ⟨a, ha, hle⟩ := ih hk
    obtain ⟨a', ha', hlt⟩ := left_own h1 h2 (sizes ht.exec hk).1 (sizes ht.exec hk).2 ha
    exact ⟨a', ha', by omega⟩
  | other ht hj h1 h2 he ih =>
    rw [next_other h2 (Ne.symm hj)]
    exact ih fun i k v hi => hks i k v (List.mem_append_left _ hi)
  | change ht hj h1 h2 ih =>
    rw [next_other h2 (Ne.symm hj)]
    exact ih fun i k v hi => hks i k v (List.mem_append_left _ hi)

/-- **C132**, partial: a call of Load or Clear makes at most 8 steps, one of Len at most 3, one of Range at most `8 + n`, one of Swap or LoadOrStore at most
`12 + 2 n + 2 c`, one of LoadAndDelete, CompareAndSwap or CompareAndDelete at most `10 + 2 c`, where `n` is the number of keys ever stored and `c` the number of
changes of entries by other calls meanwhile. The full statement, with a bound that does not depend on `c`, is that of `rwmap_turns_false`. -/
theorem rwmap_turns_partial {i n c : Nat} {h : List (Ev K V)} {s : State K V} (ht : Turns eqv prog i n c h s) {ks : List K}
    (hks : ∀ i k v, .inv i ∈ h → prog i = .swap k v ∨ prog i = .loadOrStore k v → k ∈ ks) :
    n ≤ match prog i with
      | .load _ | .clear => 8
      | .len => 3
      | .range => 8 + ks.length
      | .swap _ _ | .loadOrStore _ _ => 12 + 2 * ks.length + 2 * c
      | .loadAndDelete _ | .compareAndSwap _ _ _ | .compareAndDelete _ _ => 10 + 2 * c := by
  have h1 := turns_le ht hks
  have h2 := fun b => turns_left (b := b) ht hks
  cases hop : prog i <;> rw [hop] at h1 h2 <;> simp only [weight, Op.adds] at h1 ⊢
  case load => obtain ⟨a, _, ha⟩ := h2 8 rfl; omega
  case clear => obtain ⟨a, _, ha⟩ := h2 8 rfl; omega
  case len => obtain ⟨a, _, ha⟩ := h2 3 rfl; omega
  case range => obtain ⟨a, _, ha⟩ := h2 _ rfl; omega
  all_goals (simp at h1; omega)

/-! ## Swaps of one key against each other -/

/-- Call 1 stores key 1, call 2 is a Range, all other calls store key 1. -/
def raceProg : Nat → Op Nat Nat := fun i => if i = 2 then .range else .swap 1 i

/-- Call 0 has found the entry of key 1 and is about to look at it; no call from `m` on has been made. -/
structure Racing (s : State Nat Nat) (m : Nat) : Prop where
  pc : s.pc 0 = .ent 0 .u
  read : s.sh.read = ⟨[(1, 0)], false⟩
  ent : ∃ b < m, s.sh.ent 0 = .val b
  idle : ∀ j, m ≤ j → s.pc j = .idle
  gt : 2 < m

theorem Racing.round {n c m : Nat} {h : List (Ev Nat Nat)} {s : State Nat Nat} (r : Racing s m)
    (ht : Turns (fun a b => some (a == b)) raceProg 0 n c h s) :
    ∃ c' h' s', Turns (fun a b => some (a == b)) raceProg 0 (n + 2) c' h' s' ∧ Racing s' (m + 1) := by
  obtain ⟨b, hb, he⟩ := r.ent
  have hm := r.gt
  have p0 : raceProg 0 = .swap 1 0 := rfl
  have pm : raceProg m = .swap 1 m := by simp [raceProg]; omega
  have hp : ∀ l : List (Nat × Nat), (id l).Perm l := fun _ => .refl _
  have t1 : next (fun a b => some (a == b)) raceProg id true s 0 = some (s.goto 0 (.cas 0 .u (.val b))) := by
    simp [next, r.pc, p0, entStep, he, State.goto]
  have T1 := ht.own hp t1
  have m0 : m ≠ 0 := by omega
  have hne : b ≠ m := by omega
  generalize hs1 : s.goto 0 (.cas 0 .u (.val b)) = s1 at T1
  have c1 : s1.pc 0 = .cas 0 .u (.val b) := by simp [← hs1, State.goto]
  have i1 : ∀ j, m ≤ j → s1.pc j = .idle := fun j hj => by
    rw [← hs1]; simp [State.goto, r.idle j hj]; omega
  have h1 : s1.sh = s.sh := by rw [← hs1]; rfl
  have t2 : next (fun a b => some (a == b)) raceProg id true s1 m = some (s1.goto m .start) := by
    simp [next, i1 m (Nat.le_refl _), State.goto]
  have T2 := T1.other m0 hp t2 (.inl rfl)
  have t3 : next (fun a b => some (a == b)) raceProg id true (s1.goto m .start) m = some ((s1.goto m .start).goto m (.ent 0 .u)) := by
    simp [next, State.goto, pm, startStep, h1, r.read, aget]
  have T3 := T2.other m0 hp t3 (.inl rfl)
  generalize hs3 : (s1.goto m .start).goto m (.ent 0 .u) = s3 at T3
  have c3 : s3.pc m = .ent 0 .u := by simp [← hs3, State.goto]
  have o3 : ∀ j, j ≠ m → s3.pc j = s1.pc j := fun j hj => by simp [← hs3, State.goto, hj]
  have h3 : s3.sh = s.sh := by rw [← hs3]; exact h1
  have t4 : next (fun a b => some (a == b)) raceProg id true s3 m = some (s3.goto m (.cas 0 .u (.val b))) := by
    simp [next, c3, pm, entStep, h3, he, State.goto]
  have T4 := T3.other m0 hp t4 (.inl rfl)
  have t5 : next (fun a b => some (a == b)) raceProg id true (s3.goto m (.cas 0 .u (.val b))) m =
      some ({ s3 with sh := s.sh.setEnt 0 (.val m) }.goto m (.fin (.opt (some (raceProg b).arg)))) := by
    simp [next, pm, casStep, h3, he, State.goto, after, deref, finish]
    funext j; split <;> rfl
  have T5 := T4.change m0 hp t5
  generalize hs5 : { s3 with sh := s.sh.setEnt 0 (.val m) }.goto m (.fin (.opt (some (raceProg b).arg))) = s5 at T5
  have c5 : s5.pc m = .fin (.opt (some (raceProg b).arg)) := by simp [← hs5, State.goto]
  have o5 : ∀ j, j ≠ m → s5.pc j = s1.pc j := fun j hj => by simp [← hs5, State.goto, hj, o3 j hj]
  have h5 : s5.sh = s.sh.setEnt 0 (.val m) := by rw [← hs5]; rfl
  have t6 : next (fun a b => some (a == b)) raceProg id true s5 m = some (s5.goto m (.done (.opt (some (raceProg b).arg)))) := by
    simp [next, c5, State.goto]
  have T6 := T5.other m0 hp t6 (.inl rfl)
  generalize hs6 : s5.goto m (.done (.opt (some (raceProg b).arg))) = s6 at T6
  have o6 : ∀ j, j ≠ m → s6.pc j = s1.pc j := fun j hj => by simp [← hs6, State.goto, hj, o5 j hj]
  have h6 : s6.sh = s.sh.setEnt 0 (.val m) := by rw [← hs6]; exact h5
  have t7 : next (fun a b => some (a == b)) raceProg id true s6 0 = some (s6.goto 0 (.ent 0 .u)) := by
    simp [next, o6 0 (Ne.symm m0), c1, casStep, h6, Sh.setEnt, Ne.symm hne, State.goto]
  refine ⟨_, _, _, T6.own hp t7, ?_, ?_, ⟨m, by omega, ?_⟩, ?_, by omega⟩
  · simp
  · rw [goto_sh, h6]; exact r.read
  · rw [goto_sh, h6]; simp [Sh.setEnt]
  · intro j hj
    rw [goto_pc_ne _ _ (by omega), o6 j (by omega)]
    exact i1 j (by omega)

theorem sched_idle {go : Bool} {is : List Nat} {j : Nat} (hj : j ∉ is) : ∀ {s s' : State K V} {h h' : List (Ev K V)},
    sched eqv prog go is s h = some (s', h') → s'.pc j = s.pc j := by
  induction is with
  | nil => intro s s' h h' he; simp [sched] at he; rw [he.1]
  | cons i is ih =>
    intro s s' h h' he
    simp only [List.mem_cons, not_or] at hj
    simp only [sched] at he
    split at he
    · next hn => rw [ih hj.2 he, next_other hn hj.1]
    · cases he

theorem racing_start : ∃ h s, Exec (fun a b => some (a == b)) raceProg h s ∧ Racing s 3 := by
  obtain ⟨⟨s, h⟩, hx⟩ : ∃ x, sched (fun a b => some (a == b)) raceProg true (rep 10 1 ++ rep 9 2 ++ rep 2 0) State.init [] = some x := ⟨_, rfl⟩
  have e : (sched (fun a b => some (a == b)) raceProg true (rep 10 1 ++ rep 9 2 ++ rep 2 0) State.init []).map
      (fun x => (x.1.pc 0, x.1.sh.read, x.1.sh.ent 0)) = some (.ent 0 .u, ⟨[(1, 0)], false⟩, .val 1) := rfl
  rw [hx] at e
  simp only [Option.map_some, Option.some.injEq, Prod.mk.injEq] at e
  refine ⟨h, s, sched_exec .init hx, e.1, e.2.1, ⟨1, by omega, e.2.2⟩, ?_, by omega⟩
  intro j hj
  rw [sched_idle (by simp [rep]; omega) hx]
  rfl

/-- **C132** is false: with one key, and however large `B` is, a Swap can make more than `B` steps and still be in progress. -/
theorem rwmap_turns_false : ¬ ∀ (prog : Nat → Op Nat Nat) (ks : List Nat), ∃ B, ∀ (i n c : Nat) (h : List (Ev Nat Nat)) (s : State Nat Nat),
    Turns (fun a b => some (a == b)) prog i n c h s →
    (∀ i k v, .inv i ∈ h → prog i = .swap k v ∨ prog i = .loadOrStore k v → k ∈ ks) → n ≤ B := by
  intro H
  obtain ⟨B, hB⟩ := H raceProg [1]
  have : ∀ N, ∃ n c h s m, N ≤ n ∧ Turns (fun a b => some (a == b)) raceProg 0 n c h s ∧ Racing s m := by
    intro N
    induction N with
    | zero =>
      obtain ⟨h, s, hx, hr⟩ := racing_start
      obtain ⟨n, c, ht⟩ := hx.turns 0
      exact ⟨n, c, h, s, 3, by omega, ht, hr⟩
    | succ N ih =>
      obtain ⟨n, c, h, s, m, hn, ht, hr⟩ := ih
      obtain ⟨c', h', s', ht', hr'⟩ := hr.round ht
      exact ⟨_, _, _, _, _, by omega, ht', hr'⟩
  obtain ⟨n, c, h, s, m, hn, ht, -⟩ := this (B + 1)
  have := hB 0 n c h s ht (by
    intro i k v _ hp
    rcases hp with hp | hp <;> simp only [raceProg] at hp <;> split at hp <;> cases hp
    simp)
  omega

/-- C132: after two rounds the Swap has made at least 4 steps and is still in progress; it has made at most `14 + 2 c`. -/
example : ∃ n c h s, Turns (fun a b => some (a == b)) raceProg 0 n c h s ∧ s.pc 0 = .ent 0 .u ∧ 4 ≤ n ∧ n ≤ 14 + 2 * c := by
  obtain ⟨h, s, hx, hr⟩ := racing_start
  obtain ⟨n, c, ht⟩ := hx.turns 0
  obtain ⟨c1, h1, s1, ht1, hr1⟩ := hr.round ht
  obtain ⟨c2, h2, s2, ht2, hr2⟩ := hr1.round ht1
  refine ⟨_, _, _, _, ht2, hr2.pc, by omega, ?_⟩
  have := rwmap_turns_partial ht2 (ks := [1]) (by
    intro i k v _ hp
    rcases hp with hp | hp <;> simp only [raceProg] at hp <;> split at hp <;> cases hp
    simp)
  simpa [raceProg] using this

/-- C131: there are runs to speak of: the Swap is in progress and can make a step. -/
example : ∃ h s s', Exec (fun a b => some (a == b)) raceProg h s ∧ ¬ Quiescent s ∧ Goes (fun a b => some (a == b)) raceProg s s' := by
  obtain ⟨h, s, hx, hr⟩ := racing_start
  have hq : ¬ Quiescent s := by
    intro hq
    have := hq 0
    rw [hr.pc] at this
    simp at this
  obtain ⟨s', hs'⟩ := rwmap_goes hx hq
  exact ⟨h, s, s', hx, hq, hs'⟩
end Verif.RWMap
