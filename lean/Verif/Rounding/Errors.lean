import Verif.Rounding.Lemmas
import Mathlib.Tactic.Linarith
import Mathlib.Algebra.Order.BigOperators.Group.List

/-!
# Rounding errors of the gains
-/

set_option linter.unusedSectionVars false

namespace Verif.Rounding

open Verif.Partition Verif.Louvain

variable {K : Type} [Field K] [LinearOrder K] [IsStrictOrderedRing K]

/-- `a` is the exact value `x` up to `q` roundings of quantities of total size `A`. -/
def Near (u : K) (q : Nat) (a x A : K) : Prop := |a - x| ≤ ((1 + u) ^ q - 1) * A ∧ |x| ≤ A

variable {u B : K} {ar : Arith K}

theorem one_le_pow' (hu : 0 ≤ u) (q : Nat) : 1 ≤ (1 + u) ^ q := one_le_pow₀ (by linarith)

theorem Near.nonneg {q : Nat} {a x A : K} (h : Near u q a x A) : 0 ≤ A := le_trans (abs_nonneg _) h.2

theorem Near.bound {q : Nat} {a x A : K} (h : Near u q a x A) : |a| ≤ (1 + u) ^ q * A := by
  have h1 : |a| ≤ |a - x| + |x| := by
    have := abs_add_le (a - x) x
    simpa using this
  have := h.1
  have := h.2
  linarith

theorem Near.mono (hu : 0 ≤ u) {q q' : Nat} (hq : q ≤ q') {a x A : K} (h : Near u q a x A) :
    Near u q' a x A := by
  refine ⟨le_trans h.1 (mul_le_mul_of_nonneg_right ?_ h.nonneg), h.2⟩
  have := pow_le_pow_right₀ (a := 1 + u) (by linarith) hq
  linarith

theorem Near.self (a : K) : Near u 0 a a |a| := by simp [Near]

theorem Near.zero : Near u 0 (0 : K) 0 0 := by simp [Near]

theorem Near.neg {q : Nat} {a x A : K} (h : Near u q a x A) : Near u q (-a) (-x) A := by
  refine ⟨?_, by rw [abs_neg]; exact h.2⟩
  have : -a - -x = -(a - x) := by ring
  rw [this, abs_neg]
  exact h.1

theorem Near.add (hr : Rounds u B ar) (hu : 0 ≤ u) {q : Nat} {a x A b y A' : K} (h : Near u q a x A)
    (h' : Near u q b y A') (hB : (1 + u) ^ q * (A + A') ≤ B) :
    Near u (q + 1) (ar.add a b) (x + y) (A + A') := by
  have e1 := h.bound
  have e2 := h'.bound
  have e3 := hr.add a b (by nlinarith)
  have e4 := abs_add_le a b
  have e5 := abs_add_le (a - x) (b - y)
  have e6 : ar.add a b - (x + y) = (ar.add a b - (a + b)) + ((a - x) + (b - y)) := by ring
  have e7 := abs_add_le (ar.add a b - (a + b)) ((a - x) + (b - y))
  have e8 : u * |a + b| ≤ u * ((1 + u) ^ q * (A + A')) :=
    mul_le_mul_of_nonneg_left (by nlinarith) hu
  have e9 := h.1
  have e10 := h'.1
  refine ⟨?_, le_trans (abs_add_le x y) (add_le_add h.2 h'.2)⟩
  rw [e6]
  have : ((1 + u) ^ (q + 1) - 1) * (A + A')
      = u * ((1 + u) ^ q * (A + A')) + (((1 + u) ^ q - 1) * A + ((1 + u) ^ q - 1) * A') := by ring
  rw [this]
  linarith

theorem Near.sub (hr : Rounds u B ar) (hu : 0 ≤ u) {q : Nat} {a x A b y A' : K} (h : Near u q a x A)
    (h' : Near u q b y A') (hB : (1 + u) ^ q * (A + A') ≤ B) :
    Near u (q + 1) (ar.sub a b) (x - y) (A + A') := by
  have e1 := h.bound
  have e2 := h'.bound
  have e3 := hr.sub a b (by nlinarith)
  have e4 := abs_sub a b
  have e5 := abs_sub (a - x) (b - y)
  have e6 : ar.sub a b - (x - y) = (ar.sub a b - (a - b)) + ((a - x) - (b - y)) := by ring
  have e7 := abs_add_le (ar.sub a b - (a - b)) ((a - x) - (b - y))
  have e8 : u * |a - b| ≤ u * ((1 + u) ^ q * (A + A')) :=
    mul_le_mul_of_nonneg_left (by nlinarith) hu
  have e9 := h.1
  have e10 := h'.1
  refine ⟨?_, le_trans (abs_sub x y) (add_le_add h.2 h'.2)⟩
  rw [e6]
  have : ((1 + u) ^ (q + 1) - 1) * (A + A')
      = u * ((1 + u) ^ q * (A + A')) + (((1 + u) ^ q - 1) * A + ((1 + u) ^ q - 1) * A') := by ring
  rw [this]
  linarith

/-- Exact sum of entries that are near. -/
theorem near_list {ι : Type} {q : Nat} (l : List ι) (a x A : ι → K)
    (h : ∀ i ∈ l, Near u q (a i) (x i) (A i)) :
    Near u q (l.map a).sum (l.map x).sum (l.map A).sum := by
  induction l with
  | nil => simp [Near]
  | cons i l ih =>
    have h1 := ih fun j hj => h j (by simp [hj])
    have h2 := h i (by simp)
    refine ⟨?_, ?_⟩
    · have e : ((i :: l).map a).sum - ((i :: l).map x).sum
          = (a i - x i) + ((l.map a).sum - (l.map x).sum) := by simp; ring
      rw [e]
      have := abs_add_le (a i - x i) ((l.map a).sum - (l.map x).sum)
      have := h1.1
      have := h2.1
      simp only [List.map_cons, List.sum_cons]
      rw [mul_add]
      linarith
    · simp only [List.map_cons, List.sum_cons]
      exact le_trans (abs_add_le _ _) (add_le_add h2.2 h1.2)

theorem absSum_le {ι : Type} {q : Nat} (l : List ι) (a x A : ι → K)
    (h : ∀ i ∈ l, Near u q (a i) (x i) (A i)) : absSum (l.map a) ≤ (1 + u) ^ q * (l.map A).sum := by
  induction l with
  | nil => simp [absSum]
  | cons i l ih =>
    have h1 := ih fun j hj => h j (by simp [hj])
    have h2 := (h i (by simp)).bound
    unfold absSum at h1 ⊢
    simp only [List.map_cons, List.sum_cons, mul_add]
    exact add_le_add h2 h1

theorem Near.combine (hu : 0 ≤ u) {q k : Nat} {s a x A : K} (h : Near u q a x A)
    (hs : |s - a| ≤ ((1 + u) ^ k - 1) * ((1 + u) ^ q * A)) : Near u (q + k) s x A := by
  refine ⟨?_, h.2⟩
  have e : s - x = (s - a) + (a - x) := by ring
  rw [e]
  have := abs_add_le (s - a) (a - x)
  have := h.1
  have e2 : ((1 + u) ^ (q + k) - 1) * A
      = ((1 + u) ^ k - 1) * ((1 + u) ^ q * A) + ((1 + u) ^ q - 1) * A := by
    rw [pow_add]; ring
  rw [e2]
  linarith

theorem Near.sum (hr : Rounds u B ar) (hu : 0 ≤ u) {ι : Type} {q : Nat} (l : List ι) (a x A : ι → K)
    (h : ∀ i ∈ l, Near u q (a i) (x i) (A i)) (hB : (1 + u) ^ q * (l.map A).sum ≤ B) :
    Near u (q + l.length) (ar.sum (l.map a)) (l.map x).sum (l.map A).sum := by
  have h1 := absSum_le l a x A h
  have h2 := hr.sum (l.map a) (le_trans h1 hB)
  refine (near_list l a x A h).combine hu (le_trans h2 ?_)
  rw [List.length_map]
  exact mul_le_mul_of_nonneg_left h1 (by have := one_le_pow' hu l.length; linarith)

theorem fold_add (hr : Rounds u B ar) (hu : 0 ≤ u) {q0 : Nat} (X x A : Nat → Nat → K) (k : Nat)
    (l : List Nat) (h1 : ∀ i ∈ l, Near u q0 (X k i) (x k i) (A k i))
    (h2 : ∀ i ∈ l, Near u q0 (X i k) (x i k) (A i k)) (q : Nat) (hq : q0 ≤ q) (d y D : K)
    (hd : Near u q d y D)
    (hB : (1 + u) ^ (q + 2 * l.length) * (D + ((l.map fun i => A k i).sum
      + (l.map fun i => A i k).sum)) ≤ B) :
    Near u (q + 2 * l.length) (l.foldl (fun d i => ar.add (ar.add d (X k i)) (X i k)) d)
      (y + ((l.map fun i => x k i).sum + (l.map fun i => x i k).sum))
      (D + ((l.map fun i => A k i).sum + (l.map fun i => A i k).sum)) := by
  induction l generalizing q d y D with
  | nil => simpa using hd
  | cons i l ih =>
    have n1 := h1 i (by simp)
    have n2 := h2 i (by simp)
    have s1 : 0 ≤ (l.map fun i => A k i).sum := by
      apply List.sum_nonneg
      intro z hz
      obtain ⟨j, hj, rfl⟩ := List.mem_map.1 hz
      exact (h1 j (by simp [hj])).nonneg
    have s2 : 0 ≤ (l.map fun i => A i k).sum := by
      apply List.sum_nonneg
      intro z hz
      obtain ⟨j, hj, rfl⟩ := List.mem_map.1 hz
      exact (h2 j (by simp [hj])).nonneg
    simp only [List.map_cons, List.sum_cons, List.length_cons] at hB
    have hD := hd.nonneg
    have hn1 := n1.nonneg
    have hn2 := n2.nonneg
    have step : ∀ q' ≤ q + 2 * (l.length + 1), ∀ z,
        z ≤ D + (A k i + (l.map fun i => A k i).sum + (A i k + (l.map fun i => A i k).sum)) →
        (1 + u) ^ q' * z ≤ B := by
      intro q' hq' z hz
      refine le_trans (mul_le_mul_of_nonneg_left hz (by positivity)) (le_trans ?_ hB)
      exact mul_le_mul_of_nonneg_right (pow_le_pow_right₀ (by linarith) hq') (by linarith)
    have m1 := Near.add hr hu hd (n1.mono hu hq) (step q (by omega) _ (by linarith))
    have m2 := Near.add hr hu m1 (n2.mono hu (by omega : q0 ≤ q + 1))
      (step (q + 1) (by omega) _ (by linarith))
    have := ih (fun j hj => h1 j (by simp [hj])) (fun j hj => h2 j (by simp [hj])) (q + 1 + 1)
      (by omega) _ _ _ m2 (step _ (by omega) _ (by linarith))
    simp only [List.foldl_cons, List.map_cons, List.sum_cons, List.length_cons]
    have e1 : q + 2 * (l.length + 1) = q + 1 + 1 + 2 * l.length := by ring
    rw [e1]
    have e2 : y + (x k i + (l.map fun i => x k i).sum + (x i k + (l.map fun i => x i k).sum))
        = y + x k i + x i k + ((l.map fun i => x k i).sum + (l.map fun i => x i k).sum) := by ring
    have e3 : D + (A k i + (l.map fun i => A k i).sum + (A i k + (l.map fun i => A i k).sum))
        = D + A k i + A i k + ((l.map fun i => A k i).sum + (l.map fun i => A i k).sum) := by ring
    rw [e2, e3]
    exact this

theorem fold_sub (hr : Rounds u B ar) (hu : 0 ≤ u) {q0 : Nat} (X x A : Nat → Nat → K) (k : Nat)
    (l : List Nat) (h1 : ∀ i ∈ l, Near u q0 (X k i) (x k i) (A k i))
    (h2 : ∀ i ∈ l, Near u q0 (X i k) (x i k) (A i k)) (q : Nat) (hq : q0 ≤ q) (d y D : K)
    (hd : Near u q d y D)
    (hB : (1 + u) ^ (q + 2 * l.length) * (D + ((l.map fun i => A k i).sum
      + (l.map fun i => A i k).sum)) ≤ B) :
    Near u (q + 2 * l.length) (l.foldl (fun d i => ar.sub (ar.sub d (X k i)) (X i k)) d)
      (y - ((l.map fun i => x k i).sum + (l.map fun i => x i k).sum))
      (D + ((l.map fun i => A k i).sum + (l.map fun i => A i k).sum)) := by
  induction l generalizing q d y D with
  | nil => simpa using hd
  | cons i l ih =>
    have n1 := h1 i (by simp)
    have n2 := h2 i (by simp)
    have s1 : 0 ≤ (l.map fun i => A k i).sum := by
      apply List.sum_nonneg
      intro z hz
      obtain ⟨j, hj, rfl⟩ := List.mem_map.1 hz
      exact (h1 j (by simp [hj])).nonneg
    have s2 : 0 ≤ (l.map fun i => A i k).sum := by
      apply List.sum_nonneg
      intro z hz
      obtain ⟨j, hj, rfl⟩ := List.mem_map.1 hz
      exact (h2 j (by simp [hj])).nonneg
    simp only [List.map_cons, List.sum_cons, List.length_cons] at hB
    have hD := hd.nonneg
    have hn1 := n1.nonneg
    have hn2 := n2.nonneg
    have step : ∀ q' ≤ q + 2 * (l.length + 1), ∀ z,
        z ≤ D + (A k i + (l.map fun i => A k i).sum + (A i k + (l.map fun i => A i k).sum)) →
        (1 + u) ^ q' * z ≤ B := by
      intro q' hq' z hz
      refine le_trans (mul_le_mul_of_nonneg_left hz (by positivity)) (le_trans ?_ hB)
      exact mul_le_mul_of_nonneg_right (pow_le_pow_right₀ (by linarith) hq') (by linarith)
    have m1 := Near.sub hr hu hd (n1.mono hu hq) (step q (by omega) _ (by linarith))
    have m2 := Near.sub hr hu m1 (n2.mono hu (by omega : q0 ≤ q + 1))
      (step (q + 1) (by omega) _ (by linarith))
    have := ih (fun j hj => h1 j (by simp [hj])) (fun j hj => h2 j (by simp [hj])) (q + 1 + 1)
      (by omega) _ _ _ m2 (step _ (by omega) _ (by linarith))
    simp only [List.foldl_cons, List.map_cons, List.sum_cons, List.length_cons]
    have e1 : q + 2 * (l.length + 1) = q + 1 + 1 + 2 * l.length := by ring
    rw [e1]
    have e2 : y - (x k i + (l.map fun i => x k i).sum + (x i k + (l.map fun i => x i k).sum))
        = y - x k i - x i k - ((l.map fun i => x k i).sum + (l.map fun i => x i k).sum) := by ring
    have e3 : D + (A k i + (l.map fun i => A k i).sum + (A i k + (l.map fun i => A i k).sum))
        = D + A k i + A i k + ((l.map fun i => A k i).sum + (l.map fun i => A i k).sum) := by ring
    rw [e2, e3]
    exact this

/-- Size of the terms of a gain. -/
def size (A : Nat → Nat → K) (k : Nat) (l : List Nat) : K :=
  (l.map fun i => A k i).sum + (l.map fun i => A i k).sum + A k k

theorem sumTo_near (hr : Rounds u B ar) (hu : 0 ≤ u) (cy : Bool) {q0 : Nat} (X x A : Nat → Nat → K)
    (k : Nat) (l : List Nat) (h1 : ∀ i ∈ l, Near u q0 (X k i) (x k i) (A k i))
    (h2 : ∀ i ∈ l, Near u q0 (X i k) (x i k) (A i k)) (h3 : Near u q0 (X k k) (x k k) (A k k))
    (hB : (1 + u) ^ (q0 + 2 * l.length + 2) * size A k l ≤ B) :
    Near u (q0 + 2 * l.length + 2) (sumTo ar cy X k l)
      ((l.map fun i => x k i).sum + (l.map fun i => x i k).sum + x k k) (size A k l) := by
  have s1 : 0 ≤ (l.map fun i => A k i).sum := by
    apply List.sum_nonneg
    intro z hz
    obtain ⟨j, hj, rfl⟩ := List.mem_map.1 hz
    exact (h1 j hj).nonneg
  have s2 : 0 ≤ (l.map fun i => A i k).sum := by
    apply List.sum_nonneg
    intro z hz
    obtain ⟨j, hj, rfl⟩ := List.mem_map.1 hz
    exact (h2 j hj).nonneg
  have s3 := h3.nonneg
  have step : ∀ q' ≤ q0 + 2 * l.length + 2, ∀ z, z ≤ size A k l → (1 + u) ^ q' * z ≤ B := by
    intro q' hq' z hz
    refine le_trans (mul_le_mul_of_nonneg_left hz (by positivity)) (le_trans ?_ hB)
    exact mul_le_mul_of_nonneg_right (pow_le_pow_right₀ (by linarith) hq')
      (by unfold size; linarith)
  unfold size at step ⊢
  unfold sumTo
  cases cy with
  | true =>
    rw [if_pos rfl, hr.zero]
    have f := fold_add hr hu X x A k l h1 h2 q0 le_rfl 0 0 0 (Near.zero.mono hu (by omega))
      (step _ (by omega) _ (by linarith))
    rw [zero_add, zero_add] at f
    exact (Near.add hr hu f (h3.mono hu (by omega)) (step _ (by omega) _ le_rfl)).mono hu (by omega)
  | false =>
    rw [if_neg (by simp)]
    by_cases hl : l.length = 0
    · have : l = [] := List.length_eq_zero_iff.1 hl
      subst this
      have g1 := Near.sum hr hu (q := q0) ([] : List Nat) (fun i => X k i) (fun i => x k i)
        (fun i => A k i) (by simp) (step _ (by omega) _ (by linarith))
      have g2 := Near.sum hr hu (q := q0) ([] : List Nat) (fun i => X i k) (fun i => x i k)
        (fun i => A i k) (by simp) (step _ (by omega) _ (by linarith))
      have g3 := Near.add hr hu g1 g2 (step _ (by simp) _ (by linarith))
      exact Near.add hr hu g3 (h3.mono hu (by simp)) (step _ (by simp) _ le_rfl)
    · have g1 := Near.sum hr hu (q := q0) l (fun i => X k i) (fun i => x k i) (fun i => A k i) h1
        (step _ (by omega) _ (by linarith))
      have g2 := Near.sum hr hu (q := q0) l (fun i => X i k) (fun i => x i k) (fun i => A i k) h2
        (step _ (by omega) _ (by linarith))
      have g3 := Near.add hr hu g1 g2 (step _ (by omega) _ (by linarith))
      exact (Near.add hr hu g3 (h3.mono hu (by omega)) (step _ (by omega) _ le_rfl)).mono hu
        (by omega)

theorem sumOut_near (hr : Rounds u B ar) (hu : 0 ≤ u) (cy : Bool) {q0 : Nat} (X x A : Nat → Nat → K)
    (k : Nat) (l : List Nat) (h1 : ∀ i ∈ l, Near u q0 (X k i) (x k i) (A k i))
    (h2 : ∀ i ∈ l, Near u q0 (X i k) (x i k) (A i k)) (h3 : Near u q0 (X k k) (x k k) (A k k))
    (hB : (1 + u) ^ (q0 + 2 * l.length + 2) * size A k l ≤ B) :
    Near u (q0 + 2 * l.length + 2) (sumOut ar cy X k l)
      (-(l.map fun i => x k i).sum - (l.map fun i => x i k).sum + x k k) (size A k l) := by
  have s1 : 0 ≤ (l.map fun i => A k i).sum := by
    apply List.sum_nonneg
    intro z hz
    obtain ⟨j, hj, rfl⟩ := List.mem_map.1 hz
    exact (h1 j hj).nonneg
  have s2 : 0 ≤ (l.map fun i => A i k).sum := by
    apply List.sum_nonneg
    intro z hz
    obtain ⟨j, hj, rfl⟩ := List.mem_map.1 hz
    exact (h2 j hj).nonneg
  have s3 := h3.nonneg
  have step : ∀ q' ≤ q0 + 2 * l.length + 2, ∀ z, z ≤ size A k l → (1 + u) ^ q' * z ≤ B := by
    intro q' hq' z hz
    refine le_trans (mul_le_mul_of_nonneg_left hz (by positivity)) (le_trans ?_ hB)
    exact mul_le_mul_of_nonneg_right (pow_le_pow_right₀ (by linarith) hq')
      (by unfold size; linarith)
  unfold size at step ⊢
  unfold sumOut
  cases cy with
  | true =>
    rw [if_pos rfl, hr.zero]
    have f := fold_sub hr hu X x A k l h1 h2 q0 le_rfl 0 0 0 (Near.zero.mono hu (by omega))
      (step _ (by omega) _ (by linarith))
    rw [zero_add] at f
    have e : -(l.map fun i => x k i).sum - (l.map fun i => x i k).sum
        = 0 - ((l.map fun i => x k i).sum + (l.map fun i => x i k).sum) := by ring
    rw [e]
    exact (Near.add hr hu f (h3.mono hu (by omega)) (step _ (by omega) _ le_rfl)).mono hu (by omega)
  | false =>
    rw [if_neg (by simp), hr.neg]
    by_cases hl : l.length = 0
    · have : l = [] := List.length_eq_zero_iff.1 hl
      subst this
      have g1 := Near.sum hr hu (q := q0) ([] : List Nat) (fun i => X k i) (fun i => x k i)
        (fun i => A k i) (by simp) (step _ (by omega) _ (by linarith))
      have g2 := Near.sum hr hu (q := q0) ([] : List Nat) (fun i => X i k) (fun i => x i k)
        (fun i => A i k) (by simp) (step _ (by omega) _ (by linarith))
      have g3 := Near.sub hr hu g1.neg g2 (step _ (by simp) _ (by linarith))
      exact Near.add hr hu g3 (h3.mono hu (by simp)) (step _ (by simp) _ le_rfl)
    · have g1 := Near.sum hr hu (q := q0) l (fun i => X k i) (fun i => x k i) (fun i => A k i) h1
        (step _ (by omega) _ (by linarith))
      have g2 := Near.sum hr hu (q := q0) l (fun i => X i k) (fun i => x i k) (fun i => A i k) h2
        (step _ (by omega) _ (by linarith))
      have g3 := Near.sub hr hu g1.neg g2 (step _ (by omega) _ (by linarith))
      exact (Near.add hr hu g3 (h3.mono hu (by omega)) (step _ (by omega) _ le_rfl)).mono hu
        (by omega)

theorem scan_nonneg (hr : Rounds u B ar) (cy : Bool) (S : Nat → Nat → K) (lst : Finset Nat → List Nat)
    (p : Part) (v : Nat) (ci : Int) (rOut : K) (l : List Int) (best : K) (c : Int) (h0 : 0 ≤ best)
    (b : K) (c' : Int) (h : scan ar cy S lst p v ci rOut l best c = .ok (b, c')) : 0 ≤ b := by
  induction l generalizing best c with
  | nil =>
    simp only [scan, Except.ok.injEq, Prod.mk.injEq] at h
    exact h.1 ▸ h0
  | cons x l ih =>
    simp only [scan] at h
    split at h
    · split at h
      · simp at h
      · split at h
        · rename_i hle
          rw [hr.le, decide_eq_true_eq] at hle
          exact ih _ _ (le_trans h0 hle) h
        · exact ih _ _ h0 h
    · exact ih _ _ h0 h

/-- The matrices of one phase: computed entries `X`, exact entries `x` and sizes `A`. -/
structure Level (u : K) (q m : Nat) (M : K) (X x A : Nat → Nat → K) : Prop where
  near : ∀ i < m, ∀ j < m, Near u q (X i j) (x i j) (A i j)
  mass : ∑ i ∈ Finset.range m, ∑ j ∈ Finset.range m, A i j ≤ M

theorem list_sum_finset (c : Finset Nat) (l : List Nat) (hnd : l.Nodup) (hmem : ∀ v, v ∈ l ↔ v ∈ c)
    (f : Nat → K) : (l.map f).sum = ∑ i ∈ c, f i := by
  have hc : c = l.toFinset := by ext v; simp [hmem]
  rw [hc, List.sum_toFinset _ hnd]

theorem length_le (m : Nat) (c : Finset Nat) (l : List Nat) (hnd : l.Nodup)
    (hmem : ∀ v, v ∈ l ↔ v ∈ c) (hc : ∀ v ∈ c, v < m) : l.length ≤ m := by
  have hcc : c = l.toFinset := by ext v; simp [hmem]
  have h1 : l.length = c.card := by rw [hcc, List.toFinset_card_of_nodup hnd]
  have h2 : c ⊆ Finset.range m := fun v hv => Finset.mem_range.2 (hc v hv)
  have := Finset.card_le_card h2
  rw [Finset.card_range] at this
  omega

/-- A computed gain is the exact change of stability up to `gainError`-like bounds. -/
theorem moved_gain (hr : Rounds u B ar) (hu : 0 ≤ u) (cy : Bool) {q m : Nat} {M : K}
    {X x A : Nat → Nat → K} (hX : Level u q m M X x A)
    (hB : (1 + u) ^ (q + 2 * m + 3) * (4 * M) ≤ B)
    (T : Nat → Nat → K) (it : Finset Int → List Int) (lst : Finset Nat → List Nat)
    (hnd : ∀ c, (lst c).Nodup) (hmem : ∀ c v, v ∈ lst c ↔ v ∈ c) {p : Part} (h : Consistent p)
    (hn : p.numNodes = m) {v : Nat} (hv : v < m) {g : K} {p' : Part}
    (hm : Moved ar cy X T m it lst p v g p') :
    |g - (stability x p' - stability x p)| ≤ ((1 + u) ^ (q + 2 * m + 3) - 1) * (4 * M) ∧ 0 ≤ g := by
  obtain ⟨ci, cf, rOut, rIn, cs, hd, hne, hcf, hat, hout, hin, rfl, rfl, hscan, _⟩ := hm
  have hcv : v ∈ p.clusters.getD ci ∅ := at_getD.2 hat
  have hnotin : v ∉ p.clusters.getD cf ∅ := fun hf => hne (h.1.disj v ci cf hat (at_getD.1 hf))
  have hlt : ∀ k, ∀ w ∈ p.clusters.getD k ∅, w < m := by
    intro k w hw
    rw [← hn]
    exact at_lt_n h.1 (at_getD.1 hw)
  -- exact gain
  obtain ⟨eo, ei, heo, hei, hst⟩ := gain_exact x h hd hcf hne
  rw [hst]
  -- computed parts
  unfold deltaOut at hout
  rw [getCluster_nat (at_lt hat)] at hout
  simp only [hcv, not_true_eq_false, if_false, Except.ok.injEq] at hout
  unfold deltaTo at hin
  rw [getCluster_nat hcf] at hin
  simp only [hnotin, if_false, Except.ok.injEq] at hin
  unfold Louvain.deltaOut at heo
  rw [getCluster_nat (at_lt hat)] at heo
  simp only [hcv, not_true_eq_false, if_false, Except.ok.injEq] at heo
  unfold Louvain.deltaTo at hei
  rw [getCluster_nat hcf] at hei
  simp only [hnotin, if_false, Except.ok.injEq] at hei
  set co := p.clusters.getD ci ∅ with hco
  set cn := p.clusters.getD cf ∅ with hcn
  have hls : ∀ (c : Finset Nat) (f : Nat → K), ((lst c).map f).sum = ∑ i ∈ c, f i :=
    fun c f => list_sum_finset c (lst c) (hnd c) (hmem c) f
  have hA : ∀ i < m, ∀ j < m, 0 ≤ A i j := fun i hi j hj => (hX.near i hi j hj).nonneg
  have hAvv := hA v hv v hv
  -- sizes
  have hrow : ∑ j ∈ Finset.range m, A v j ≤ M := by
    refine le_trans ?_ hX.mass
    exact Finset.single_le_sum (f := fun i => ∑ j ∈ Finset.range m, A i j)
      (fun i hi => Finset.sum_nonneg fun j hj => hA i (Finset.mem_range.1 hi) j (Finset.mem_range.1 hj))
      (Finset.mem_range.2 hv)
  have hcol : ∑ i ∈ Finset.range m, A i v ≤ M := by
    refine le_trans ?_ hX.mass
    apply Finset.sum_le_sum
    intro i hi
    exact Finset.single_le_sum (f := fun j => A i j)
      (fun j hj => hA i (Finset.mem_range.1 hi) j (Finset.mem_range.1 hj)) (Finset.mem_range.2 hv)
  have hdiag : A v v ≤ M := le_trans (Finset.single_le_sum (f := fun j => A v j)
      (fun j hj => hA v hv j (Finset.mem_range.1 hj)) (Finset.mem_range.2 hv)) hrow
  have hdisj : Disjoint co cn := by
    rw [Finset.disjoint_left]
    intro w hw1 hw2
    exact hne (h.1.disj w ci cf (at_getD.1 hw1) (at_getD.1 hw2))
  have hsub : co ∪ cn ⊆ Finset.range m := by
    intro w hw
    rcases Finset.mem_union.1 hw with hw | hw
    · exact Finset.mem_range.2 (hlt ci w hw)
    · exact Finset.mem_range.2 (hlt cf w hw)
  have htwo : ∀ f : Nat → K, (∀ i < m, 0 ≤ f i) → ∑ i ∈ co, f i + ∑ i ∈ cn, f i
      ≤ ∑ i ∈ Finset.range m, f i := by
    intro f hf
    rw [← Finset.sum_union hdisj]
    exact Finset.sum_le_sum_of_subset_of_nonneg hsub fun i hi _ => hf i (Finset.mem_range.1 hi)
  have hrow2 := htwo (fun j => A v j) (fun j hj => hA v hv j hj)
  have hcol2 := htwo (fun i => A i v) (fun i hi => hA i hi v hv)
  have hso : size A v (lst co) = ∑ i ∈ co, A v i + ∑ i ∈ co, A i v + A v v := by
    unfold size
    rw [hls, hls]
  have hsn : size A v (lst cn) = ∑ i ∈ cn, A v i + ∑ i ∈ cn, A i v + A v v := by
    unfold size
    rw [hls, hls]
  have hpos : ∀ c : Finset Nat, (∀ w ∈ c, w < m) → 0 ≤ size A v (lst c) := by
    intro c hc
    unfold size
    rw [hls, hls]
    have := Finset.sum_nonneg fun i hi => hA v hv i (hc i hi)
    have := Finset.sum_nonneg fun i hi => hA i (hc i hi) v hv
    linarith
  have hp1 := hpos co (hlt ci)
  have hp2 := hpos cn (hlt cf)
  have htot : size A v (lst co) + size A v (lst cn) ≤ 4 * M := by
    rw [hso, hsn]
    linarith
  have hpow : ∀ q' ≤ q + 2 * m + 3, ∀ z, z ≤ 4 * M → (1 + u) ^ q' * z ≤ B := by
    intro q' hq' z hz
    refine le_trans (mul_le_mul_of_nonneg_left hz (by positivity)) (le_trans ?_ hB)
    exact mul_le_mul_of_nonneg_right (pow_le_pow_right₀ (by linarith) hq') (by linarith)
  have len1 := length_le m co (lst co) (hnd co) (hmem co) (hlt ci)
  have len2 := length_le m cn (lst cn) (hnd cn) (hmem cn) (hlt cf)
  have no := sumOut_near hr hu cy X x A v (lst co)
    (fun i hi => hX.near v hv i (hlt ci i ((hmem co i).1 hi)))
    (fun i hi => hX.near i (hlt ci i ((hmem co i).1 hi)) v hv) (hX.near v hv v hv)
    (hpow _ (by omega) _ (by linarith))
  have nn := sumTo_near hr hu cy X x A v (lst cn)
    (fun i hi => hX.near v hv i (hlt cf i ((hmem cn i).1 hi)))
    (fun i hi => hX.near i (hlt cf i ((hmem cn i).1 hi)) v hv) (hX.near v hv v hv)
    (hpow _ (by omega) _ (by linarith))
  rw [hls, hls, heo, hout] at no
  rw [hls, hls, hei, hin] at nn
  have tot := Near.add hr hu (no.mono hu (by omega : _ ≤ q + 2 * m + 2))
    (nn.mono hu (by omega : _ ≤ q + 2 * m + 2)) (hpow _ (by omega) _ htot)
  refine ⟨?_, ?_⟩
  · have e : stability x p + (eo + ei) - stability x p = eo + ei := by ring
    rw [e]
    refine le_trans tot.1 (mul_le_mul_of_nonneg_left htot ?_)
    have := one_le_pow' hu (q + 2 * m + 2 + 1)
    linarith
  · exact scan_nonneg hr cy X lst p v ci rOut _ ar.zero ci (by rw [hr.zero]) _ _ hscan

/-- The first phase works on `S` itself. -/
theorem level_zero (hu : 0 ≤ u) (q n : Nat) (S : Nat → Nat → K) :
    Level u q n (mass n S) S S (fun i j => |S i j|) :=
  ⟨fun _ _ _ _ => (Near.self _).mono hu (by omega), le_rfl⟩

theorem block_list (c d : Finset Nat) (l : List Nat) (l' : List Nat) (h1 : l.Nodup) (h2 : l'.Nodup)
    (h3 : ∀ v, v ∈ l ↔ v ∈ c) (h4 : ∀ v, v ∈ l' ↔ v ∈ d) (f : Nat → Nat → K) :
    (l.map fun i => l'.map fun j => f i j).flatten.sum = ∑ i ∈ c, ∑ j ∈ d, f i j := by
  have h5 : ∀ m : List Nat, (m.map fun i => l'.map fun j => f i j).flatten.sum
      = (m.map fun i => (l'.map fun j => f i j).sum).sum := by
    intro m
    induction m with
    | nil => rfl
    | cons a m ih => simp [ih]
  rw [h5, list_sum_finset c l h1 h3]
  exact Finset.sum_congr rfl fun i _ => list_sum_finset d l' h2 h4 _

/-- Later phases work on the aggregated covariance, whose entries are near the exact sums. -/
theorem level_agg (hr : Rounds u B ar) (hu : 0 ≤ u) (lst : Finset Nat → List Nat)
    (hnd : ∀ c, (lst c).Nodup) (hmem : ∀ c v, v ∈ lst c ↔ v ∈ c) (S : Nat → Nat → K) {p : Part}
    (h : Consistent p) (hB : mass p.numNodes S ≤ B) :
    Level u (p.numNodes ^ 2) p.clusters.length (mass p.numNodes S) (agg ar lst S p.clusters)
      (aggS S p.clusters) (aggS (fun i j => |S i j|) p.clusters) := by
  set n := p.numNodes with hn
  have hlt : ∀ k, ∀ w ∈ p.clusters.getD k ∅, w < n := by
    intro k w hw
    exact at_lt_n h.1 (at_getD.1 hw)
  have hle : ∀ s t, aggS (fun i j => |S i j|) p.clusters s t ≤ mass n S := by
    intro s t
    unfold aggS blockSum mass
    have hsub : ∀ k, p.clusters.getD k ∅ ⊆ Finset.range n :=
      fun k w hw => Finset.mem_range.2 (hlt k w hw)
    refine le_trans (Finset.sum_le_sum fun i _ =>
      Finset.sum_le_sum_of_subset_of_nonneg (hsub t) fun j _ _ => abs_nonneg (S i j)) ?_
    exact Finset.sum_le_sum_of_subset_of_nonneg (hsub s) fun i _ _ =>
      Finset.sum_nonneg fun j _ => abs_nonneg (S i j)
  refine ⟨fun s _ t _ => ?_, ?_⟩
  · set ls := lst (p.clusters.getD s ∅) with hls
    set lt := lst (p.clusters.getD t ∅) with hlt'
    have e1 : (ls.map fun i => lt.map fun j => S i j).flatten.sum = aggS S p.clusters s t :=
      block_list _ _ ls lt (hnd _) (hnd _) (hmem _) (hmem _) S
    have e2 : absSum (ls.map fun i => lt.map fun j => S i j).flatten
        = aggS (fun i j => |S i j|) p.clusters s t := by
      have := block_list _ _ ls lt (hnd _) (hnd _) (hmem _) (hmem _) (fun i j => |S i j|)
      unfold absSum
      rw [List.map_flatten, List.map_map]
      unfold aggS blockSum
      rw [← this]
      congr 2
      apply List.map_congr_left
      intro i _
      simp
    have e3 : (ls.map fun i => lt.map fun j => S i j).flatten.length ≤ n ^ 2 := by
      have l1 := length_le n _ ls (hnd _) (hmem _) (hlt s)
      have l2 := length_le n _ lt (hnd _) (hmem _) (hlt t)
      have : (ls.map fun i => lt.map fun j => S i j).flatten.length = ls.length * lt.length := by
        rw [List.length_flatten, List.map_map]
        have : (List.length ∘ fun i => lt.map fun j => S i j) = fun _ => lt.length := by
          funext i
          simp
        rw [this]
        simp
      rw [this, pow_two]
      exact Nat.mul_le_mul l1 l2
    have e4 : 0 ≤ aggS (fun i j => |S i j|) p.clusters s t := by
      unfold aggS blockSum
      exact Finset.sum_nonneg fun i _ => Finset.sum_nonneg fun j _ => abs_nonneg _
    have e5 := hr.sum2 (ls.map fun i => lt.map fun j => S i j) (by rw [e2]; exact le_trans (hle s t) hB)
    rw [e1, e2] at e5
    refine ⟨?_, ?_⟩
    · refine le_trans e5 (mul_le_mul_of_nonneg_right ?_ e4)
      have := pow_le_pow_right₀ (a := 1 + u) (by linarith) e3
      linarith
    · unfold aggS blockSum
      refine le_trans (Finset.abs_sum_le_sum_abs _ _) (Finset.sum_le_sum fun i _ => ?_)
      exact Finset.abs_sum_le_sum_abs _ _
  · obtain ⟨lab, hlab⟩ := exists_lab h.1
    have := blockSum_lab (fun i j => |S i j|) h.1 lab hlab (fun _ _ y => y) (fun _ _ _ _ => rfl)
    unfold aggS mass
    rw [this]

end Verif.Rounding
