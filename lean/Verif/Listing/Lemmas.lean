import Verif.Listing.Spec
import Verif.TempNet.Props
import Verif.TempNet.Table
import Mathlib.Tactic

/-! # The matrices are a function of the contacts -/

set_option linter.dupNamespace false
set_option linter.unusedSectionVars false
set_option linter.unusedSimpArgs false

namespace Verif.Listing

open Verif.TempNet

variable {K : Type} [Field K] [LinearOrder K] [IsStrictOrderedRing K]

/-! ## The state is given by its adjacency matrix -/

/-- Degrees: a contact of a node with itself counts twice. -/
def degOf (n : Nat) (A : Nat → Nat → K) (a : Nat) : K := ∑ b ∈ Finset.range n, A a b + A a a

def selfOf (d : Nat → K) (a : Nat) : K := if d a = 0 then 1 else 0
def invOf (d : Nat → K) (a : Nat) : K := if d a = 0 then 1 else 1 / d a

def stateOf (n : Nat) (A : Nat → Nat → K) : LapState K :=
  ⟨A, degOf n A, selfOf (degOf n A), invOf (degOf n A)⟩

structure Bin (A : Nat → Nat → K) : Prop where
  sym : ∀ a b, A a b = A b a
  bin : ∀ a b, A a b = 0 ∨ A a b = 1

theorem Bin.nonneg {A : Nat → Nat → K} (h : Bin A) (a b : Nat) : 0 ≤ A a b := by
  rcases h.bin a b with h | h <;> rw [h] <;> norm_num

theorem Bin.set {A : Nat → Nat → K} (h : Bin A) (i j : Nat) {v : K} (hv : v = 0 ∨ v = 1) :
    Bin (setPair A i j v) := by
  constructor
  · intro a b
    unfold setPair
    by_cases h1 : a = j ∧ b = i
    · rw [if_pos h1]
      by_cases h2 : b = j ∧ a = i
      · rw [if_pos h2]
      · rw [if_neg h2, if_pos ⟨h1.2, h1.1⟩]
    · rw [if_neg h1]
      by_cases h2 : a = i ∧ b = j
      · rw [if_pos h2, if_pos ⟨h2.2, h2.1⟩]
      · rw [if_neg h2, if_neg (fun x => h2 ⟨x.2, x.1⟩), if_neg (fun x => h1 ⟨x.2, x.1⟩), h.sym]
  · intro a b
    unfold setPair
    split_ifs
    · exact hv
    · exact hv
    · exact h.bin a b

theorem setPair_same {A : Nat → Nat → K} (h : ∀ a b, A a b = A b a) (i j : Nat) :
    setPair A i j (A i j) = A := by
  funext a b
  unfold setPair
  split_ifs with h1 h2
  · rw [h1.1, h1.2, h]
  · rw [h2.1, h2.2]
  · rfl

theorem degOf_set {A : Nat → Nat → K} (h : ∀ a b, A a b = A b a) {n i j : Nat} (hi : i < n)
    (hj : j < n) (v : K) :
    degOf n (setPair A i j v) = addAt (addAt (degOf n A) i (v - A i j)) j (v - A i j) := by
  funext a
  by_cases hij : i = j
  · subst hij
    have e : ∀ b, setPair A i i v a b = A a b + if b = i then (if a = i then v - A i i else 0) else 0 := by
      intro b
      unfold setPair
      by_cases h1 : a = i <;> by_cases h2 : b = i <;> simp [h1, h2]
    unfold degOf addAt
    simp only [e, Finset.sum_add_distrib, Finset.sum_ite_eq', Finset.mem_range, hi, if_true]
    by_cases h1 : a = i <;> simp [h1]
    ring
  · have e : ∀ b, setPair A i j v a b = A a b + (if b = j then (if a = i then v - A i j else 0) else 0)
        + (if b = i then (if a = j then v - A i j else 0) else 0) := by
      intro b
      unfold setPair
      by_cases h1 : a = j ∧ b = i
      · have h2 : ¬ b = j := by omega
        have h3 : ¬ a = i := by omega
        rw [if_pos h1, if_neg h2, if_pos h1.2, if_pos h1.1, h1.1, h1.2, h j i]; ring
      · rw [if_neg h1]
        by_cases h2 : a = i ∧ b = j
        · have h3 : ¬ b = i := by omega
          rw [if_pos h2, if_pos h2.2, if_pos h2.1, if_neg h3, h2.1, h2.2]; ring
        · rw [if_neg h2]
          have e1 : (if b = j then (if a = i then v - A i j else 0) else (0:K)) = 0 := by
            split_ifs with x y
            · exact absurd ⟨y, x⟩ h2
            · rfl
            · rfl
          have e2 : (if b = i then (if a = j then v - A i j else 0) else (0:K)) = 0 := by
            split_ifs with x y
            · exact absurd ⟨y, x⟩ h1
            · rfl
            · rfl
          rw [e1, e2]; ring
    unfold degOf addAt
    simp only [e, Finset.sum_add_distrib, Finset.sum_ite_eq', Finset.mem_range, hi, hj, if_true]
    by_cases h1 : a = i
    · have h2 : ¬ a = j := by omega
      have h3 : ¬ i = j := hij
      subst h1
      simp [h3]; ring
    · by_cases h2 : a = j
      · subst h2
        simp [h1]; ring
      · simp [h1, h2]

/-- Updating the two nodes restores the arrays. -/
theorem refresh_two (s : LapState K) (i j : Nat)
    (hS : ∀ a, a ≠ i → a ≠ j → s.S a = selfOf s.deg a)
    (hD : ∀ a, a ≠ i → a ≠ j → s.Dm1 a = invOf s.deg a) :
    (s.refresh i).refresh j = ⟨s.A, s.deg, selfOf s.deg, invOf s.deg⟩ := by
  obtain ⟨A, deg, S, D⟩ := s
  dsimp only at hS hD ⊢
  have key : ∀ (S D : Nat → K) (x : Nat), (⟨A, deg, S, D⟩ : LapState K).refresh x =
      ⟨A, deg, fun a => if a = x then selfOf deg x else S a,
        fun a => if a = x then invOf deg x else D a⟩ := by
    intro S D x
    unfold LapState.refresh selfOf invOf
    by_cases h : deg x = 0 <;> simp [h]
  rw [key, key]
  congr 1
  · funext a
    by_cases h1 : a = j
    · rw [if_pos h1, h1]
    · rw [if_neg h1]
      by_cases h2 : a = i
      · rw [if_pos h2, h2]
      · rw [if_neg h2, hS a h2 h1]
  · funext a
    by_cases h1 : a = j
    · rw [if_pos h1, h1]
    · rw [if_neg h1]
      by_cases h2 : a = i
      · rw [if_pos h2, h2]
      · rw [if_neg h2, hD a h2 h1]

theorem addAt_two_ne (d : Nat → K) {i j a : Nat} (v w : K) (h1 : a ≠ i) (h2 : a ≠ j) :
    addAt (addAt d i v) j w a = d a := by
  unfold addAt; simp [h1, h2]

def bit (b : Bool) : K := if b then 1 else 0

theorem bit_cases (b : Bool) : (bit b : K) = 0 ∨ (bit b : K) = 1 := by cases b <;> simp [bit]

theorem row_stateOf {n : Nat} {A : Nat → Nat → K} (h : Bin A) (e : Event Nat K) (b : Bool)
    (hi : e.src < n) (hj : e.tgt < n) :
    (stateOf n A).row e b = stateOf n (setPair A e.src e.tgt (bit b)) := by
  have key : ∀ v : K, ((⟨setPair A e.src e.tgt v, addAt (addAt (degOf n A) e.src (v - A e.src e.tgt)) e.tgt
      (v - A e.src e.tgt), selfOf (degOf n A), invOf (degOf n A)⟩ : LapState K).refresh e.src).refresh
      e.tgt = stateOf n (setPair A e.src e.tgt v) := by
    intro v
    rw [refresh_two]
    · unfold stateOf
      dsimp only
      rw [degOf_set h.sym hi hj]
    · intro a h1 h2
      dsimp only [selfOf]
      rw [addAt_two_ne _ _ _ h1 h2]
    · intro a h1 h2
      dsimp only [invOf]
      rw [addAt_two_ne _ _ _ h1 h2]
  have same : (((stateOf n A).refresh e.src).refresh e.tgt) = stateOf n A := by
    rw [refresh_two]
    · rfl
    · intro a _ _; rfl
    · intro a _ _; rfl
  cases b
  · unfold LapState.row LapState.disconnect
    simp only [Bool.false_eq_true, if_false]
    rcases h.bin e.src e.tgt with h0 | h1
    · have hn : ¬ 0 < (stateOf n A).A e.src e.tgt := by
        show ¬ 0 < A e.src e.tgt
        rw [h0]; exact lt_irrefl _
      rw [if_neg hn, same]
      have : (bit false : K) = A e.src e.tgt := by rw [h0]; rfl
      rw [this, setPair_same h.sym]
    · have hn : 0 < (stateOf n A).A e.src e.tgt := by
        show 0 < A e.src e.tgt
        rw [h1]; exact one_pos
      rw [if_pos hn]
      have := key 0
      rw [h1, zero_sub] at this
      exact this
  · unfold LapState.row LapState.connect
    simp only [if_true]
    rcases h.bin e.src e.tgt with h0 | h1
    · have hn : (stateOf n A).A e.src e.tgt ≠ 1 := by
        show A e.src e.tgt ≠ 1
        rw [h0]; exact zero_ne_one
      rw [if_pos hn]
      have := key 1
      rw [h0, sub_zero] at this
      exact this
    · have hn : ¬ (stateOf n A).A e.src e.tgt ≠ 1 := by
        show ¬ A e.src e.tgt ≠ 1
        rw [h1]; simp
      rw [if_neg hn, same]
      have : (bit true : K) = A e.src e.tgt := by rw [h1]; rfl
      rw [this, setPair_same h.sym]

theorem degOf_pos {n : Nat} {A : Nat → Nat → K} (h : Bin A) {i j : Nat} (hj : j < n)
    (hA : A i j = 1) : degOf n A i ≠ 0 := by
  have h1 : A i j ≤ ∑ b ∈ Finset.range n, A i b :=
    Finset.single_le_sum (f := fun b => A i b) (fun b _ => h.nonneg i b) (Finset.mem_range.2 hj)
  have h2 := h.nonneg i i
  unfold degOf
  rw [hA] at h1
  linarith

theorem instRow_stateOf {n : Nat} {A : Nat → Nat → K} (h : Bin A) (e : Event Nat K) (b : Bool)
    (hi : e.src < n) (hj : e.tgt < n) :
    (stateOf n A).instRow e b = stateOf n (if b then setPair A e.src e.tgt 1 else A) := by
  cases b
  · rfl
  · unfold LapState.instRow
    simp only [if_true]
    rcases h.bin e.src e.tgt with h0 | h1
    · have hn : (stateOf n A).A e.src e.tgt ≠ 1 := by
        show A e.src e.tgt ≠ 1
        rw [h0]; exact zero_ne_one
      rw [if_pos hn]
      have hd := degOf_set h.sym hi hj (1 : K)
      rw [h0, sub_zero] at hd
      have hB := h.set e.src e.tgt (v := 1) (.inr rfl)
      have hs : setPair A e.src e.tgt 1 e.src e.tgt = 1 := by unfold setPair; simp
      have p1 := degOf_pos hB hj hs
      have p2 := degOf_pos hB hi ((hB.sym _ _).trans hs)
      show LapState.mk _ _ _ _ = _
      unfold stateOf
      dsimp only
      rw [hd]
      rw [hd] at p1 p2
      congr 1
      · funext a
        by_cases x : a = e.tgt
        · rw [if_pos x, x, selfOf, if_neg p2]
        · rw [if_neg x]
          by_cases y : a = e.src
          · rw [if_pos y, y, selfOf, if_neg p1]
          · rw [if_neg y, selfOf, selfOf, addAt_two_ne _ _ _ y x]
      · funext a
        by_cases x : a = e.tgt
        · rw [if_pos x, x, invOf, if_neg p2]
        · rw [if_neg x]
          by_cases y : a = e.src
          · rw [if_pos y, y, invOf, if_neg p1]
          · rw [if_neg y, invOf, invOf, addAt_two_ne _ _ _ y x]
    · have hn : ¬ (stateOf n A).A e.src e.tgt ≠ 1 := by
        show ¬ A e.src e.tgt ≠ 1
        rw [h1]; simp
      rw [if_neg hn]
      have := setPair_same h.sym e.src e.tgt
      rw [h1] at this
      rw [this]

theorem init_stateOf (n : Nat) : (LapState.init : LapState K) = stateOf n fun _ _ => 0 := by
  unfold LapState.init stateOf
  have hd : degOf n (fun _ _ => (0 : K)) = fun _ => 0 := by
    funext a; simp [degOf]
  rw [hd]
  congr 1
  · funext a; simp [selfOf]
  · funext a; simp [invOf]

theorem bin_zero : Bin fun _ _ => (0 : K) := ⟨fun _ _ => rfl, fun _ _ => .inl rfl⟩

/-! ## Entries are set by the last row of the pair -/

def setRows (rows : List (Event Nat K × Bool)) (A : Nat → Nat → K) : Nat → Nat → K :=
  rows.foldl (fun A r => setPair A r.1.src r.1.tgt (bit r.2)) A

theorem setRows_bin (rows : List (Event Nat K × Bool)) {A : Nat → Nat → K} (h : Bin A) :
    Bin (setRows rows A) := by
  induction rows generalizing A with
  | nil => exact h
  | cons r rs ih => exact ih (h.set _ _ (bit_cases _))

theorem rows_stateOf {n : Nat} (rows : List (Event Nat K × Bool)) {A : Nat → Nat → K} (h : Bin A)
    (hr : ∀ r ∈ rows, r.1.src < n ∧ r.1.tgt < n) :
    rows.foldl (fun s r => s.row r.1 r.2) (stateOf n A) = stateOf n (setRows rows A) := by
  induction rows generalizing A with
  | nil => rfl
  | cons r rs ih =>
    rw [List.foldl_cons, row_stateOf h r.1 r.2 (hr r List.mem_cons_self).1 (hr r List.mem_cons_self).2]
    exact ih (h.set _ _ (bit_cases _)) fun x hx => hr x (List.mem_cons_of_mem _ hx)

instance (e : Event Nat K) (i j : Nat) : Decidable (e.Pair i j) :=
  inferInstanceAs (Decidable ((e.src = i ∧ e.tgt = j) ∨ (e.src = j ∧ e.tgt = i)))

theorem setPair_eq (A : Nat → Nat → K) (e : Event Nat K) (v : K) (a b : Nat) :
    setPair A e.src e.tgt v a b = if e.Pair a b then v else A a b := by
  unfold setPair
  by_cases h1 : a = e.tgt ∧ b = e.src
  · rw [if_pos h1, if_pos (.inr ⟨h1.2.symm, h1.1.symm⟩)]
  · rw [if_neg h1]
    by_cases h2 : a = e.src ∧ b = e.tgt
    · rw [if_pos h2, if_pos (.inl ⟨h2.1.symm, h2.2.symm⟩)]
    · rw [if_neg h2, if_neg]
      rintro (⟨x, y⟩ | ⟨x, y⟩)
      · exact h2 ⟨x.symm, y.symm⟩
      · exact h1 ⟨y.symm, x.symm⟩

/-- The value after a sequence of writes. -/
def lastOr (x : K) (l : List Bool) : K := l.foldl (fun _ b => bit b) x

theorem setRows_apply (rows : List (Event Nat K × Bool)) (A : Nat → Nat → K) (a b : Nat) :
    setRows rows A a b =
      lastOr (A a b) ((rows.filter fun r => r.1.Pair a b).map Prod.snd) := by
  induction rows generalizing A with
  | nil => rfl
  | cons r rs ih =>
    show setRows rs (setPair A r.1.src r.1.tgt (bit r.2)) a b = _
    rw [ih, setPair_eq, List.filter_cons]
    by_cases h : r.1.Pair a b
    · rw [if_pos h, if_pos (by simpa using h)]
      rfl
    · rw [if_neg h, if_neg (by simpa using h)]

/-- The rows of a contact at a time, given the two times. -/
def writes (c : Bool) (t : K) (p : K × K) : List Bool :=
  let s := if p.1 = t then [true] else []
  let f := if p.2 = t then [false] else []
  if c then s ++ f else f ++ s

theorem lastOr_append (x : K) (l m : List Bool) : lastOr x (l ++ m) = lastOr (lastOr x l) m := by
  unfold lastOr; rw [List.foldl_append]

theorem lastOr_ne (x y : K) (l : List Bool) (h : l ≠ []) : lastOr x l = lastOr y l := by
  cases l with
  | nil => exact absurd rfl h
  | cons b r => rfl

/-- Only the last contact with a row matters. -/
theorem lastOr_flatMap (g : K × K → List Bool) (x : K) (l : List (K × K)) :
    lastOr x (l.flatMap g) =
      match (l.filter fun p => g p ≠ []).getLast? with
      | none => x
      | some p => lastOr x (g p) := by
  induction l using List.reverseRecOn with
  | nil => rfl
  | append_singleton l p ih =>
    rw [List.flatMap_append, lastOr_append, List.filter_append]
    simp only [List.flatMap_cons, List.flatMap_nil, List.append_nil]
    by_cases h : g p = []
    · rw [h]
      simp only [h, ne_eq, not_true_eq_false, decide_false, List.filter_cons, Bool.false_eq_true,
        if_false, List.filter_nil, List.append_nil]
      show lastOr x (l.flatMap g) = _
      rw [ih]
    · have : [p].filter (fun p => decide (g p ≠ [])) = [p] := by simp [h]
      rw [this, List.getLast?_append]
      simp only [List.getLast?_singleton, Option.some_or]
      exact lastOr_ne _ _ _ h

/-- Sorted by starting, then ending times. -/
def TLe (p q : K × K) : Prop := p.1 < q.1 ∨ (p.1 = q.1 ∧ p.2 ≤ q.2)

theorem TLe.antisymm {p q : K × K} (h : TLe p q) (h' : TLe q p) : p = q := by
  rcases h with h | h <;> rcases h' with h' | h'
  · exact absurd (h.trans h') (lt_irrefl _)
  · exact absurd h (h'.1 ▸ lt_irrefl _)
  · exact absurd h' (h.1 ▸ lt_irrefl _)
  · exact Prod.ext h.1 (le_antisymm h.2 h'.2)

theorem getLast?_max {l : List (K × K)} (h : l.Pairwise TLe) {p : K × K} (hp : l.getLast? = some p) :
    p ∈ l ∧ ∀ q ∈ l, q = p ∨ TLe q p := by
  induction l using List.reverseRecOn with
  | nil => cases hp
  | append_singleton l x _ =>
    rw [List.getLast?_append] at hp
    simp only [List.getLast?_singleton, Option.some_or, Option.some.injEq] at hp
    subst hp
    refine ⟨by simp, fun q hq => ?_⟩
    rcases List.mem_append.1 hq with h1 | h1
    · exact .inr ((List.pairwise_append.1 h).2.2 q h1 x (by simp))
    · exact .inl (List.mem_singleton.1 h1)

theorem getLast?_eq {l m : List (K × K)} (hl : l.Pairwise TLe) (hm : m.Pairwise TLe)
    (h : ∀ p, p ∈ l ↔ p ∈ m) : l.getLast? = m.getLast? := by
  rcases hx : l.getLast? with _ | p <;> rcases hy : m.getLast? with _ | q
  · rfl
  · rw [List.getLast?_eq_none_iff] at hx
    have := (h q).2 (getLast?_max hm hy).1
    rw [hx] at this; cases this
  · rw [List.getLast?_eq_none_iff] at hy
    have := (h p).1 (getLast?_max hl hx).1
    rw [hy] at this; cases this
  · have a := getLast?_max hl hx
    have b := getLast?_max hm hy
    rcases a.2 q ((h q).2 b.1) with e | e
    · rw [e]
    · rcases b.2 p ((h p).1 a.1) with e' | e'
      · rw [e']
      · rw [e.antisymm e']

/-- The times of the contacts of a pair, in table order. -/
def pairTimes (evs : List (Event Nat K)) (a b : Nat) : List (K × K) :=
  (evs.filter fun e => e.Pair a b).map fun e => (e.start, e.stop)

theorem pairTimes_sorted {evs : List (Event Nat K)} (h : evs.Pairwise Event.le) (a b : Nat) :
    (pairTimes evs a b).Pairwise TLe := by
  unfold pairTimes
  rw [List.pairwise_map]
  exact (h.filter _).imp fun x => x

theorem like_pair {e f : Event Nat K} (h : Like e f) (a b : Nat) : e.Pair a b ↔ f.Pair a b := by
  obtain ⟨h | h, _⟩ := h <;> unfold Event.Pair <;> rw [h.1, h.2]
  tauto

theorem mem_pairTimes {evs evs' : List (Event Nat K)} (h : SameContacts evs evs') (a b : Nat)
    (p : K × K) : p ∈ pairTimes evs a b ↔ p ∈ pairTimes evs' a b := by
  unfold pairTimes
  simp only [List.mem_map, List.mem_filter, decide_eq_true_eq]
  constructor
  · rintro ⟨e, ⟨h1, h2⟩, rfl⟩
    obtain ⟨f, hf, hl⟩ := h.1 e h1
    exact ⟨f, ⟨hf, (like_pair hl a b).1 h2⟩, Prod.ext hl.2.1.symm hl.2.2.symm⟩
  · rintro ⟨e, ⟨h1, h2⟩, rfl⟩
    obtain ⟨f, hf, hl⟩ := h.2 e h1
    exact ⟨f, ⟨hf, (like_pair hl a b).1 h2⟩, Prod.ext hl.2.1.symm hl.2.2.symm⟩

/-- The writes of a pair at a time. -/
theorem writes_rowsAt (c : Bool) (sf : Nat → Bool) (t : K) (l : List (Event Nat K × Nat))
    (h : ∀ p ∈ l, p.1.start ≠ p.1.stop ∨ sf p.2 = c) (a b : Nat) :
    (((l.flatMap (rowsOf sf t)).filter fun r => r.1.Pair a b).map Prod.snd) =
      ((l.filter fun p => p.1.Pair a b).map fun p => (p.1.start, p.1.stop)).flatMap (writes c t) := by
  induction l with
  | nil => rfl
  | cons p l ih =>
    rw [List.flatMap_cons, List.filter_append, List.map_append,
      ih fun q hq => h q (List.mem_cons_of_mem _ hq), List.filter_cons]
    have hp := h p List.mem_cons_self
    by_cases hab : p.1.Pair a b
    · rw [if_pos (by simpa using hab), List.map_cons, List.flatMap_cons]
      congr 1
      unfold rowsOf writes
      by_cases h1 : p.1.start = t <;> by_cases h2 : p.1.stop = t <;>
        rcases hp with hp | hp
      · exact absurd (h1.trans h2.symm) hp
      · simp only [h1, h2, if_true, hp]
        cases c <;> simp [hab]
      all_goals (cases sf p.2 <;> cases c <;> simp [h1, h2, hab])
    · rw [if_neg (by simpa using hab)]
      have : (rowsOf sf t p).filter (fun r => decide (r.1.Pair a b)) = [] := by
        rw [List.filter_eq_nil_iff]
        intro r hr
        have : r.1 = p.1 := by
          unfold rowsOf at hr
          split_ifs at hr <;> simp at hr <;> rcases hr with rfl | rfl <;> rfl
        rw [this]; simpa using hab
      rw [this]; rfl

theorem filter_zipIdx (evs : List (Event Nat K)) (k a b : Nat) :
    ((evs.zipIdx k).filter fun p => p.1.Pair a b).map (fun p => (p.1.start, p.1.stop)) =
      pairTimes evs a b := by
  unfold pairTimes
  induction evs generalizing k with
  | nil => rfl
  | cons e l ih =>
    rw [List.zipIdx_cons, List.filter_cons, List.filter_cons]
    by_cases h : e.Pair a b
    · simp only [h, decide_true, if_true, List.map_cons, ih]
    · simp only [h, decide_false, Bool.false_eq_true, if_false, ih]

theorem setRows_rowsAt (c : Bool) (sf : Nat → Bool) (t : K) (evs : List (Event Nat K))
    (h : ∀ e ∈ evs, e.start ≠ e.stop ∨ ∀ i, sf i = c) (A : Nat → Nat → K) (a b : Nat) :
    setRows (rowsAt evs sf t) A a b =
      lastOr (A a b) ((pairTimes evs a b).flatMap (writes c t)) := by
  rw [setRows_apply, rowsAt_eq, writes_rowsAt c sf t _ _ a b, filter_zipIdx]
  intro p hp
  have h3 : p.1 ∈ evs := (List.mem_zipIdx' hp).2 ▸ List.getElem_mem _
  exact (h p.1 h3).imp id fun x => x _

theorem writes_same {evs evs' : List (Event Nat K)} (h : SameContacts evs evs')
    (hs : evs.Pairwise Event.le) (hs' : evs'.Pairwise Event.le) (g : K × K → List Bool) (x : K)
    (a b : Nat) :
    lastOr x ((pairTimes evs a b).flatMap g) = lastOr x ((pairTimes evs' a b).flatMap g) := by
  rw [lastOr_flatMap, lastOr_flatMap, getLast?_eq ((pairTimes_sorted hs a b).filter _)
    ((pairTimes_sorted hs' a b).filter _)]
  intro p
  rw [List.mem_filter, List.mem_filter, mem_pairTimes h]

theorem SameContacts.start_ne {evs evs' : List (Event Nat K)} (h : SameContacts evs evs')
    (hz : ∀ e ∈ evs, e.start ≠ e.stop) : ∀ e ∈ evs', e.start ≠ e.stop := by
  intro e he
  obtain ⟨f, hf, hl⟩ := h.2 e he
  rw [hl.2.1, hl.2.2]
  exact hz f hf

theorem rows_same {evs evs' : List (Event Nat K)} (h : SameContacts evs evs')
    (hs : evs.Pairwise Event.le) (hs' : evs'.Pairwise Event.le) {sf sf' : Nat → Bool}
    (hf : Steady evs sf sf') (t : K) (A : Nat → Nat → K) :
    setRows (rowsAt evs sf t) A = setRows (rowsAt evs' sf' t) A := by
  funext a b
  obtain ⟨c, h1, h2⟩ : ∃ c, (∀ e ∈ evs, e.start ≠ e.stop ∨ ∀ i, sf i = c) ∧
      ∀ e ∈ evs', e.start ≠ e.stop ∨ ∀ i, sf' i = c := by
    rcases hf with hf | ⟨c, hc⟩
    · exact ⟨true, fun e he => .inl (hf e he), fun e he => .inl (h.start_ne hf e he)⟩
    · exact ⟨c, fun e _ => .inr fun i => (hc i).1, fun e _ => .inr fun i => (hc i).2⟩
  rw [setRows_rowsAt c sf t evs h1, setRows_rowsAt c sf' t evs' h2]
  exact writes_same h hs hs' _ _ a b

/-! ## The two computations -/

theorem uniqueSorted_eq {α : Type} [LinearOrder α] {l m : List α} (h : ∀ x, x ∈ l ↔ x ∈ m) :
    uniqueSorted l = uniqueSorted m := by
  have hp : (uniqueSorted l).Perm (uniqueSorted m) := by
    rw [List.perm_ext_iff_of_nodup (uniqueSorted_nodup _) (uniqueSorted_nodup _)]
    intro x
    rw [mem_uniqueSorted, mem_uniqueSorted, h]
  exact hp.eq_of_pairwise (fun a b _ _ h1 h2 => absurd (h1.trans h2) (lt_irrefl _))
    (uniqueSorted_lt _) (uniqueSorted_lt _)

theorem times_same {evs evs' : List (Event Nat K)} (h : SameContacts evs evs') :
    timesOf evs = timesOf evs' := by
  apply uniqueSorted_eq
  intro x
  simp only [List.mem_append, List.mem_map]
  constructor
  · rintro (⟨e, he, rfl⟩ | ⟨e, he, rfl⟩) <;> obtain ⟨f, hf, hl⟩ := h.1 e he
    · exact .inl ⟨f, hf, hl.2.1.symm⟩
    · exact .inr ⟨f, hf, hl.2.2.symm⟩
  · rintro (⟨e, he, rfl⟩ | ⟨e, he, rfl⟩) <;> obtain ⟨f, hf, hl⟩ := h.2 e he
    · exact .inl ⟨f, hf, hl.2.1.symm⟩
    · exact .inr ⟨f, hf, hl.2.2.symm⟩

theorem range_same {n : Nat} {evs evs' : List (Event Nat K)} (h : SameContacts evs evs')
    (hr : InRange n evs) : InRange n evs' := by
  intro e he
  obtain ⟨f, hf, hl⟩ := h.2 e he
  have := hr f hf
  rcases hl.1 with x | x
  · rw [x.1, x.2]; exact this
  · rw [x.1, x.2]; exact this.symm

theorem initial_same {n : Nat} {evs evs' : List (Event Nat K)} (h : SameContacts evs evs')
    (hr : InRange n evs) (times : List K) (k : Nat) :
    ∃ A : Nat → Nat → K, Bin A ∧ initialState n evs times k = .ok (stateOf n A) ∧
      initialState n evs' times k = .ok (stateOf n A) := by
  unfold initialState
  by_cases hk : 0 < k
  · rw [if_pos hk, if_pos hk]
    dsimp only
    set tk := times.getD (k - 1) 0
    have one : ∀ l : List (Event Nat K), InRange n l →
        ((l.filter fun e => e.start ≤ tk ∧ tk < e.stop).map fun e => (e, true)).foldlM
          (LapState.rowChecked n) LapState.init =
        .ok (stateOf n (setRows ((l.filter fun e => e.start ≤ tk ∧ tk < e.stop).map
          fun e => (e, true)) fun _ _ => 0)) := by
      intro l hl
      have hb : ∀ r ∈ (l.filter fun e => e.start ≤ tk ∧ tk < e.stop).map fun e => (e, true),
          r.1.src < n ∧ r.1.tgt < n := by
        intro r hr
        rw [List.mem_map] at hr
        obtain ⟨e, he, rfl⟩ := hr
        exact hl e (List.mem_filter.1 he).1
      rw [foldlM_checked n _ hb, init_stateOf n, rows_stateOf _ bin_zero hb]
    refine ⟨_, setRows_bin _ bin_zero, one evs hr, ?_⟩
    rw [one evs' (range_same h hr)]
    congr 2
    have val : ∀ (l : List (Event Nat K)) (a b : Nat), setRows ((l.filter fun e => e.start ≤ tk ∧
        tk < e.stop).map fun e => (e, true)) (fun _ _ => (0:K)) a b =
        if ∃ e ∈ l, e.Pair a b ∧ e.start ≤ tk ∧ tk < e.stop then 1 else 0 := by
      intro l a b
      rw [setRows_apply]
      have : ∀ m : List (Event Nat K × Bool), (∀ r ∈ m, r.2 = true) →
          ∀ x : K, lastOr x (m.map Prod.snd) = if m = [] then x else 1 := by
        intro m hm
        induction m with
        | nil => intro x; rfl
        | cons r m ih =>
          intro x
          show lastOr (bit r.2) (m.map Prod.snd) = _
          rw [ih (fun q hq => hm q (List.mem_cons_of_mem _ hq)), hm r List.mem_cons_self]
          simp [bit]
      rw [this]
      · by_cases hx : ∃ e ∈ l, e.Pair a b ∧ e.start ≤ tk ∧ tk < e.stop
        · rw [if_pos hx, if_neg]
          obtain ⟨e, he, h1, h2⟩ := hx
          apply List.ne_nil_of_mem (a := (e, true))
          simp only [List.mem_filter, List.mem_map, decide_eq_true_eq]
          exact ⟨⟨e, ⟨he, h2⟩, rfl⟩, h1⟩
        · rw [if_neg hx, if_pos]
          rw [List.filter_eq_nil_iff]
          intro r hr hp
          rw [List.mem_map] at hr
          obtain ⟨e, he, rfl⟩ := hr
          rw [List.mem_filter, decide_eq_true_eq] at he
          exact hx ⟨e, he.1, by simpa using hp, he.2⟩
      · intro r hr
        have := (List.mem_filter.1 hr).1
        rw [List.mem_map] at this
        obtain ⟨e, _, rfl⟩ := this
        rfl
    funext a b
    rw [val, val]
    refine if_congr ⟨?_, ?_⟩ rfl rfl
    · rintro ⟨e, he, h1, h2⟩
      obtain ⟨f, hf, hl⟩ := h.2 e he
      exact ⟨f, hf, (like_pair hl a b).1 h1, hl.2.1 ▸ hl.2.2 ▸ h2⟩
    · rintro ⟨e, he, h1, h2⟩
      obtain ⟨f, hf, hl⟩ := h.1 e he
      exact ⟨f, hf, (like_pair hl a b).1 h1, hl.2.1 ▸ hl.2.2 ▸ h2⟩
  · rw [if_neg hk, if_neg hk]
    exact ⟨_, bin_zero, by rw [init_stateOf n], by rw [init_stateOf n]⟩

theorem loop_same {n : Nat} {evs evs' : List (Event Nat K)} (h : SameContacts evs evs')
    (hr : InRange n evs) (hs : evs.Pairwise Event.le) (hs' : evs'.Pairwise Event.le)
    {sf sf' : Nat → Bool} (hf : Steady evs sf sf') (ts : List K) {A : Nat → Nat → K} (hA : Bin A) :
    lapLoop n evs sf (stateOf n A) ts = lapLoop n evs' sf' (stateOf n A) ts := by
  induction ts generalizing A with
  | nil => rfl
  | cons t ts ih =>
    unfold lapLoop
    have hb : ∀ r ∈ rowsAt evs sf t, r.1.src < n ∧ r.1.tgt < n := fun r hr' =>
      hr _ (mem_rowsAt _ _ _ _ hr')
    have hb' : ∀ r ∈ rowsAt evs' sf' t, r.1.src < n ∧ r.1.tgt < n := fun r hr' =>
      range_same h hr _ (mem_rowsAt _ _ _ _ hr')
    rw [foldlM_checked n _ hb, foldlM_checked n _ hb', rows_stateOf _ hA hb, rows_stateOf _ hA hb',
      rows_same h hs hs' hf t A]
    dsimp only
    rw [ih (setRows_bin _ hA)]

theorem laplacians_same {n : Nat} {evs evs' : List (Event Nat K)} (h : SameContacts evs evs')
    (hr : InRange n evs) (hs : evs.Pairwise Event.le) (hs' : evs'.Pairwise Event.le)
    {sf sf' : Nat → Bool} (hf : Steady evs sf sf') (tStart tStop : Option K) :
    computeLaplacians n evs sf tStart tStop = computeLaplacians n evs' sf' tStart tStop := by
  unfold computeLaplacians
  dsimp only
  rw [← times_same h]
  rcases window (timesOf evs) tStart tStop with e | ⟨a, b⟩
  · rfl
  · dsimp only
    obtain ⟨A, hA, h1, h2⟩ := initial_same h hr (timesOf evs) a.2
    rw [h1, h2]
    dsimp only
    rw [loop_same h hr hs hs' hf _ hA]

/-! ## Instantaneous contacts -/

theorem instFold {n : Nat} (rows : List (Event Nat K × Bool))
    (h : ∀ r ∈ rows, r.1.src < n ∧ r.1.tgt < n) {A : Nat → Nat → K} (hA : Bin A) :
    rows.foldlM (LapState.instRowChecked n) (stateOf n A) =
      .ok (stateOf n (setRows (rows.filter Prod.snd) A)) := by
  induction rows generalizing A with
  | nil => rfl
  | cons r rs ih =>
    have h0 := h r List.mem_cons_self
    have h1 : LapState.instRowChecked n (stateOf n A) r =
        .ok (stateOf n (if r.2 then setPair A r.1.src r.1.tgt 1 else A)) := by
      unfold LapState.instRowChecked
      rw [if_pos (.inr h0), instRow_stateOf hA r.1 r.2 h0.1 h0.2]
    rw [List.foldlM_cons, h1]
    show List.foldlM _ (stateOf n _) rs = _
    rw [List.filter_cons]
    have ih' := fun {A : Nat → Nat → K} hA => ih (A := A) (fun q hq => h q (List.mem_cons_of_mem _ hq)) hA
    rcases hb : r.2 with _ | _
    · simp only [Bool.false_eq_true, if_false]
      exact ih' hA
    · simp only [if_true]
      rw [ih' (hA.set _ _ (.inr rfl))]
      have : setPair A r.1.src r.1.tgt 1 = setPair A r.1.src r.1.tgt (bit r.2) := by rw [hb]; rfl
      rw [this]
      rfl

theorem inst_rows_same {evs evs' : List (Event Nat K)} (h : SameContacts evs evs')
    (sf sf' : Nat → Bool) (t : K) (A : Nat → Nat → K) :
    setRows ((rowsAt evs sf t).filter Prod.snd) A = setRows ((rowsAt evs' sf' t).filter Prod.snd) A := by
  have val : ∀ (evs : List (Event Nat K)) (sf : Nat → Bool) (a b : Nat),
      setRows ((rowsAt evs sf t).filter Prod.snd) A a b =
      if ∃ e ∈ evs, e.Pair a b ∧ e.start = t then 1 else A a b := by
    intro evs sf a b
    rw [setRows_apply]
    have one : ∀ m : List (Event Nat K × Bool), (∀ r ∈ m, r.2 = true) →
        ∀ x : K, lastOr x (m.map Prod.snd) = if m = [] then x else 1 := by
      intro m hm
      induction m with
      | nil => intro x; rfl
      | cons r m ih =>
        intro x
        show lastOr (bit r.2) (m.map Prod.snd) = _
        rw [ih (fun q hq => hm q (List.mem_cons_of_mem _ hq)), hm r List.mem_cons_self]
        simp [bit]
    rw [one]
    · by_cases hx : ∃ e ∈ evs, e.Pair a b ∧ e.start = t
      · rw [if_pos hx, if_neg]
        obtain ⟨e, he, h1, h2⟩ := hx
        apply List.ne_nil_of_mem (a := (e, true))
        simp only [List.mem_filter, decide_eq_true_eq]
        subst h2
        exact ⟨⟨rowsAt_mem_start he sf, trivial⟩, h1⟩
      · rw [if_neg hx, if_pos]
        rw [List.filter_eq_nil_iff]
        intro r hr hp
        rw [List.mem_filter] at hr
        refine hx ⟨r.1, mem_rowsAt _ _ _ _ hr.1, by simpa using hp, ?_⟩
        have h2 := hr.2
        have h1 := hr.1
        unfold rowsAt at h1
        rw [List.mem_flatMap] at h1
        obtain ⟨⟨e, id⟩, _, h3⟩ := h1
        dsimp only at h3
        split_ifs at h3 <;> simp at h3 <;> (try rcases h3 with rfl | rfl) <;>
          (try subst h3) <;> first | assumption | simp at h2
    · intro r hr
      exact (List.mem_filter.1 (List.mem_filter.1 hr).1).2
  funext a b
  rw [val, val]
  refine if_congr ⟨?_, ?_⟩ rfl rfl
  · rintro ⟨e, he, h1, h2⟩
    obtain ⟨f, hf, hl⟩ := h.1 e he
    exact ⟨f, hf, (like_pair hl a b).1 h1, hl.2.1 ▸ h2⟩
  · rintro ⟨e, he, h1, h2⟩
    obtain ⟨f, hf, hl⟩ := h.2 e he
    exact ⟨f, hf, (like_pair hl a b).1 h1, hl.2.1 ▸ h2⟩

theorem inst_loop_same {n : Nat} {evs evs' : List (Event Nat K)} (h : SameContacts evs evs')
    (hr : InRange n evs) (sf sf' : Nat → Bool) (ts : List K) :
    instLoop n evs sf ts = instLoop n evs' sf' ts := by
  induction ts with
  | nil => rfl
  | cons t ts ih =>
    unfold instLoop
    have hb : ∀ r ∈ rowsAt evs sf t, r.1.src < n ∧ r.1.tgt < n := fun r hr' =>
      hr _ (mem_rowsAt _ _ _ _ hr')
    have hb' : ∀ r ∈ rowsAt evs' sf' t, r.1.src < n ∧ r.1.tgt < n := fun r hr' =>
      range_same h hr _ (mem_rowsAt _ _ _ _ hr')
    rw [init_stateOf n, instFold _ hb bin_zero, instFold _ hb' bin_zero, inst_rows_same h sf sf' t]
    dsimp only
    rw [ih]

theorem inst_laplacians_same {n : Nat} {evs evs' : List (Event Nat K)} (h : SameContacts evs evs')
    (hr : InRange n evs) (sf sf' : Nat → Bool) (tStart tStop : Option K) :
    computeInstLaplacians n evs sf tStart tStop = computeInstLaplacians n evs' sf' tStart tStop := by
  unfold computeInstLaplacians
  dsimp only
  rw [← times_same h]
  rcases window (timesOf evs) tStart tStop with e | ⟨a, b⟩
  · rfl
  · dsimp only
    rw [inst_loop_same h hr sf sf']

end Verif.Listing
