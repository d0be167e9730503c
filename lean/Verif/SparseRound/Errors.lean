import Verif.SparseRound.ErrSpec
import Verif.SparseRound.Lemmas
import Verif.Rounding.Errors

/-!
# Rounding errors of the sparse gains
-/

set_option linter.unusedSectionVars false

namespace Verif.SparseRound

open Verif.Partition Verif.Csr Verif.Autocov
open Verif.Louvain (stability gain_exact at_lt_n getCluster getCluster_nat)
open Verif.Rounding (Rounds absSum Near one_le_pow' fold_add fold_sub size list_sum_finset length_le)
open Verif.SparseLouvain (SErr SClu mkS sneighs)

variable {K : Type} [Field K] [LinearOrder K] [IsStrictOrderedRing K] {u B : K} {ar : SArith K}

/-! ### Calculus -/

theorem near_size {q : Nat} {a x A A' : K} (hu : 0 ≤ u) (h : Near u q a x A) (hA : A ≤ A') :
    Near u q a x A' := by
  refine ⟨le_trans h.1 (mul_le_mul_of_nonneg_left hA ?_), le_trans h.2 hA⟩
  have := one_le_pow' hu q
  linarith

theorem near_mul {q q' : Nat} {a x A b y A' : K} (hu : 0 ≤ u) (h : Near u q a x A)
    (h' : Near u q' b y A') : Near u (q + q') (a * b) (x * y) (A * A') := by
  have n1 := h.nonneg
  have n2 := h'.nonneg
  have e0 : a * b - x * y = (a - x) * b + x * (b - y) := by ring
  refine ⟨?_, ?_⟩
  · rw [e0]
    refine le_trans (abs_add_le _ _) ?_
    rw [abs_mul, abs_mul]
    have e1 : |a - x| * |b| ≤ ((1 + u) ^ q - 1) * A * ((1 + u) ^ q' * A') :=
      mul_le_mul h.1 h'.bound (abs_nonneg _) (le_trans (abs_nonneg _) h.1)
    have e2 : |x| * |b - y| ≤ A * (((1 + u) ^ q' - 1) * A') :=
      mul_le_mul h.2 h'.1 (abs_nonneg _) n1
    have e3 : ((1 + u) ^ (q + q') - 1) * (A * A')
        = ((1 + u) ^ q - 1) * A * ((1 + u) ^ q' * A') + A * (((1 + u) ^ q' - 1) * A') := by
      rw [pow_add]
      ring
    rw [e3]
    linarith
  · rw [abs_mul]
    exact mul_le_mul h.2 h'.2 (abs_nonneg _) n1

theorem near_round {q : Nat} {r c x A : K} (hu : 0 ≤ u) (h : Near u q c x A)
    (hr : |r - c| ≤ u * |c|) : Near u (q + 1) r x A := by
  apply h.combine hu
  rw [pow_one]
  refine le_trans hr ?_
  have : 1 + u - 1 = u := by ring
  rw [this]
  exact mul_le_mul_of_nonneg_left h.bound hu

theorem near_inv {q : Nat} {s : K} (hu : 0 ≤ u) (h : Near u q s 1 1) (hs : (1 + u) ^ q ≤ 3 / 2) :
    Near u (2 * q) s⁻¹ 1 1 ∧ 0 < s := by
  have h1 := h.1
  rw [mul_one] at h1
  have hp := one_le_pow' hu q
  set d := (1 + u) ^ q - 1 with hd
  have hd0 : 0 ≤ d := by linarith
  have hd1 : d ≤ 1 / 2 := by linarith
  have h2 := abs_le.1 h1
  have hs0 : 1 / 2 ≤ s := by linarith
  have hpos : 0 < s := by linarith
  refine ⟨⟨?_, by simp⟩, hpos⟩
  have e1 : s⁻¹ - 1 = (1 - s) * s⁻¹ := by field_simp
  have e2 : (1 + u) ^ (2 * q) = (1 + d) * (1 + d) := by
    rw [two_mul, pow_add, hd]
    ring
  rw [e1, e2, mul_one, abs_mul, abs_of_pos (inv_pos.2 hpos)]
  have e3 : |1 - s| ≤ d := by rw [abs_sub_comm]; exact h1
  have e4 : s⁻¹ ≤ 2 := by
    rw [inv_le_comm₀ hpos (by norm_num)]
    linarith
  have e5 : |1 - s| * s⁻¹ ≤ d * 2 := mul_le_mul e3 e4 (le_of_lt (inv_pos.2 hpos)) hd0
  have e6 : 0 ≤ d * d := mul_nonneg hd0 hd0
  have : (1 + d) * (1 + d) - 1 = d * 2 + d * d := by ring
  linarith

/-- Adding numbers one after the other. -/
theorem fold_add1 {ar : Verif.Rounding.Arith K} (hr : Rounds u B ar) (hu : 0 ≤ u) {ι : Type} {q0 : Nat}
    (l : List ι) (a x : ι → K)
    (h : ∀ i ∈ l, Near u q0 (a i) (x i) (x i)) (q : Nat) (hq : q0 ≤ q) (d y D : K)
    (hd : Near u q d y D) (hB : (1 + u) ^ (q + l.length) * (D + (l.map x).sum) ≤ B) :
    Near u (q + l.length) (l.foldl (fun d i => ar.add d (a i)) d) (y + (l.map x).sum)
      (D + (l.map x).sum) := by
  induction l generalizing q d y D with
  | nil => simpa using hd
  | cons i l ih =>
    have n1 := h i (by simp)
    have s1 : 0 ≤ (l.map x).sum := by
      apply List.sum_nonneg
      intro z hz
      obtain ⟨j, hj, rfl⟩ := List.mem_map.1 hz
      exact (h j (by simp [hj])).nonneg
    have hD := hd.nonneg
    have hn1 := n1.nonneg
    simp only [List.map_cons, List.sum_cons, List.length_cons] at hB
    have m1 := Near.add hr hu hd (n1.mono hu hq) (by
      refine le_trans ?_ hB
      exact mul_le_mul (pow_le_pow_right₀ (by linarith) (by omega)) (by linarith) (by linarith)
        (by positivity))
    have := ih (fun j hj => h j (by simp [hj])) (q + 1) (by omega) _ _ _ m1 (by
      have e : q + 1 + l.length = q + (l.length + 1) := by omega
      rw [e, add_assoc D]
      exact hB)
    simp only [List.foldl_cons, List.map_cons, List.sum_cons, List.length_cons]
    have e1 : q + (l.length + 1) = q + 1 + l.length := by omega
    rw [e1, ← add_assoc, ← add_assoc]
    exact this

/-- Subtracting numbers one after the other. -/
theorem fold_sub1 {ar : Verif.Rounding.Arith K} (hr : Rounds u B ar) (hu : 0 ≤ u) {ι : Type} {q0 : Nat}
    (l : List ι) (a x : ι → K)
    (h : ∀ i ∈ l, Near u q0 (a i) (x i) (x i)) (q : Nat) (hq : q0 ≤ q) (d y D : K)
    (hd : Near u q d y D) (hB : (1 + u) ^ (q + l.length) * (D + (l.map x).sum) ≤ B) :
    Near u (q + l.length) (l.foldl (fun d i => ar.sub d (a i)) d) (y - (l.map x).sum)
      (D + (l.map x).sum) := by
  induction l generalizing q d y D with
  | nil => simpa using hd
  | cons i l ih =>
    have n1 := h i (by simp)
    have s1 : 0 ≤ (l.map x).sum := by
      apply List.sum_nonneg
      intro z hz
      obtain ⟨j, hj, rfl⟩ := List.mem_map.1 hz
      exact (h j (by simp [hj])).nonneg
    have hD := hd.nonneg
    have hn1 := n1.nonneg
    simp only [List.map_cons, List.sum_cons, List.length_cons] at hB
    have m1 := Near.sub hr hu hd (n1.mono hu hq) (by
      refine le_trans ?_ hB
      exact mul_le_mul (pow_le_pow_right₀ (by linarith) (by omega)) (by linarith) (by linarith)
        (by positivity))
    have := ih (fun j hj => h j (by simp [hj])) (q + 1) (by omega) _ _ _ m1 (by
      have e : q + 1 + l.length = q + (l.length + 1) := by omega
      rw [e, add_assoc D]
      exact hB)
    simp only [List.foldl_cons, List.map_cons, List.sum_cons, List.length_cons]
    have e1 : q + (l.length + 1) = q + 1 + l.length := by omega
    have e2 : y - (x i + (l.map x).sum) = y - x i - (l.map x).sum := by ring
    rw [e1, ← add_assoc, e2]
    exact this

/-! ### One phase -/

/-- The stored matrix of one phase next to its exact entries `t` and the exact products of weights
`w`. -/
structure SLevel (u : K) (q m : Nat) (M : K) (A : Autocov K) (t w : Nat → Nat → K) : Prop where
  row_near : ∀ k < m, ∀ e ∈ A.PT.row k, e.1 < m ∧ Near u q e.2 (t k e.1) (t k e.1)
  row_nodup : ∀ k < m, ((A.PT.row k).map Prod.fst).Nodup
  row_zero : ∀ k < m, ∀ j < m, j ∉ (A.PT.row k).map Prod.fst → t k j = 0
  col_near : ∀ k < m, ∀ e ∈ A.PTcsc.row k, e.1 < m ∧ Near u q e.2 (t e.1 k) (t e.1 k)
  col_nodup : ∀ k < m, ((A.PTcsc.row k).map Prod.fst).Nodup
  col_zero : ∀ k < m, ∀ j < m, j ∉ (A.PTcsc.row k).map Prod.fst → t j k = 0
  diag : ∀ k < m, ∃ o, fReadDiag A.PT k = .ok o ∧
    ((o = none ∧ t k k = 0) ∨ ∃ d, o = some d ∧ Near u q d (t k k) (t k k))
  pos : ∀ i < m, ∀ j < m, 0 ≤ t i j
  wpos : ∀ i < m, ∀ j < m, 0 ≤ w i j
  weights : match A.w with
    | .scalars a b => ∀ i < m, ∀ j < m, w i j = a * b
    | .vectors p1 p2 => ∀ i < m, ∀ j < m, Near u q (p1 i * p2 j) (w i j) (w i j)
  mass : ∑ i ∈ Finset.range m, ∑ j ∈ Finset.range m, (t i j + w i j) ≤ M

theorem filter_exact (r : List (Nat × K)) (hnd : (r.map Prod.fst).Nodup) (idx : List Nat)
    (hi : idx.Nodup) (f : Nat → K) (h0 : ∀ j ∈ idx, j ∉ r.map Prod.fst → f j = 0) :
    ((r.filter fun e => decide (e.1 ∈ idx)).map fun e => f e.1).sum = (idx.map f).sum := by
  have h1 := filter_sum (r.map fun e => (e.1, f e.1)) idx hi
  rw [List.filter_map, List.map_map] at h1
  have h2 : (r.filter ((fun e : Nat × K => decide (e.1 ∈ idx)) ∘ fun e => (e.1, f e.1)))
      = r.filter fun e => decide (e.1 ∈ idx) := rfl
  have h3 : (Prod.snd ∘ fun e : Nat × K => (e.1, f e.1)) = fun e => f e.1 := rfl
  rw [h2, h3] at h1
  rw [h1]
  congr 1
  apply List.map_congr_left
  intro j hj
  by_cases hm : j ∈ r.map Prod.fst
  · obtain ⟨e, he, rfl⟩ := List.mem_map.1 hm
    exact sumAt_of_mem (r.map fun e => (e.1, f e.1)) (by rw [List.map_map]; exact hnd) (e.1, f e.1)
      (List.mem_map.2 ⟨e, he, rfl⟩)
  · rw [h0 j hj hm]
    apply sumAt_eq_zero
    intro e he hej
    obtain ⟨e', he', rfl⟩ := List.mem_map.1 he
    exact hm (hej ▸ List.mem_map.2 ⟨e', he', rfl⟩)

theorem filter_length (r : List (Nat × K)) (hnd : (r.map Prod.fst).Nodup) (idx : List Nat) :
    (r.filter fun e => decide (e.1 ∈ idx)).length ≤ idx.length := by
  rw [← List.length_map (f := Prod.fst)]
  apply (List.Nodup.subperm _ _).length_le
  · exact hnd.sublist (List.filter_sublist.map _)
  · intro j hj
    obtain ⟨e, he, rfl⟩ := List.mem_map.1 hj
    simpa using (List.mem_filter.1 he).2

theorem addIn_eq (r : List (Nat × K)) (idx : List Nat) (s : K) :
    addIn ar r idx s = (r.filter fun e => decide (e.1 ∈ idx)).foldl (fun d e => ar.add d e.2) s := by
  unfold addIn
  rw [List.foldl_filter]
  simp

theorem subIn_eq (r : List (Nat × K)) (idx : List Nat) (s : K) :
    subIn ar r idx s = (r.filter fun e => decide (e.1 ∈ idx)).foldl (fun d e => ar.sub d e.2) s := by
  unfold subIn
  rw [List.foldl_filter]
  simp

theorem addIn_near (hr : RoundsS u B ar) (hu : 0 ≤ u) {q0 : Nat} (r : List (Nat × K))
    (hnd : (r.map Prod.fst).Nodup) (idx : List Nat) (hi : idx.Nodup) (f : Nat → K)
    (h : ∀ e ∈ r, Near u q0 e.2 (f e.1) (f e.1)) (h0 : ∀ j ∈ idx, j ∉ r.map Prod.fst → f j = 0)
    (q : Nat) (hq : q0 ≤ q) (d y D : K) (hd : Near u q d y D)
    (hB : (1 + u) ^ (q + idx.length) * (D + (idx.map f).sum) ≤ B) :
    Near u (q + idx.length) (addIn ar r idx d) (y + (idx.map f).sum) (D + (idx.map f).sum) := by
  rw [addIn_eq, ← filter_exact r hnd idx hi f h0]
  rw [← filter_exact r hnd idx hi f h0] at hB
  have hl := filter_length r hnd idx
  have hs : 0 ≤ ((r.filter fun e => decide (e.1 ∈ idx)).map fun e => f e.1).sum := by
    apply List.sum_nonneg
    intro z hz
    obtain ⟨e, he, rfl⟩ := List.mem_map.1 hz
    exact (h e (List.mem_filter.1 he).1).nonneg
  have hD := hd.nonneg
  have := fold_add1 hr.toRounds hu (r.filter fun e => decide (e.1 ∈ idx)) (fun e => e.2)
    (fun e => f e.1) (fun e he => h e (List.mem_filter.1 he).1) q hq d y D hd (by
      refine le_trans (mul_le_mul_of_nonneg_right (pow_le_pow_right₀ (by linarith)
        (Nat.add_le_add_left hl q)) ?_) hB
      linarith)
  exact this.mono hu (Nat.add_le_add_left hl q)

theorem subIn_near (hr : RoundsS u B ar) (hu : 0 ≤ u) {q0 : Nat} (r : List (Nat × K))
    (hnd : (r.map Prod.fst).Nodup) (idx : List Nat) (hi : idx.Nodup) (f : Nat → K)
    (h : ∀ e ∈ r, Near u q0 e.2 (f e.1) (f e.1)) (h0 : ∀ j ∈ idx, j ∉ r.map Prod.fst → f j = 0)
    (q : Nat) (hq : q0 ≤ q) (d y D : K) (hd : Near u q d y D)
    (hB : (1 + u) ^ (q + idx.length) * (D + (idx.map f).sum) ≤ B) :
    Near u (q + idx.length) (subIn ar r idx d) (y - (idx.map f).sum) (D + (idx.map f).sum) := by
  rw [subIn_eq, ← filter_exact r hnd idx hi f h0]
  rw [← filter_exact r hnd idx hi f h0] at hB
  have hl := filter_length r hnd idx
  have hs : 0 ≤ ((r.filter fun e => decide (e.1 ∈ idx)).map fun e => f e.1).sum := by
    apply List.sum_nonneg
    intro z hz
    obtain ⟨e, he, rfl⟩ := List.mem_map.1 hz
    exact (h e (List.mem_filter.1 he).1).nonneg
  have hD := hd.nonneg
  have := fold_sub1 hr.toRounds hu (r.filter fun e => decide (e.1 ∈ idx)) (fun e => e.2)
    (fun e => f e.1) (fun e he => h e (List.mem_filter.1 he).1) q hq d y D hd (by
      refine le_trans (mul_le_mul_of_nonneg_right (pow_le_pow_right₀ (by linarith)
        (Nat.add_le_add_left hl q)) ?_) hB
      linarith)
  exact this.mono hu (Nat.add_le_add_left hl q)

theorem map_sum_nonneg (l : List Nat) (f : Nat → K) (h : ∀ i ∈ l, 0 ≤ f i) : 0 ≤ (l.map f).sum := by
  apply List.sum_nonneg
  intro z hz
  obtain ⟨j, hj, rfl⟩ := List.mem_map.1 hz
  exact h j hj

theorem le_map_sum (l : List Nat) (f : Nat → K) (h : ∀ i ∈ l, 0 ≤ f i) (i : Nat) (hi : i ∈ l) :
    f i ≤ (l.map f).sum := by
  induction l with
  | nil => simp at hi
  | cons a l ih =>
    have h1 := map_sum_nonneg l f fun i h' => h i (by simp [h'])
    have h2 := h a (by simp)
    rw [List.map_cons, List.sum_cons]
    rcases List.mem_cons.1 hi with rfl | hi
    · linarith
    · have := ih (fun i h' => h i (by simp [h'])) hi
      linarith

theorem fDeltaTo_near (hr : RoundsS u B ar) (hu : 0 ≤ u) {q m : Nat} {M : K} {A : Autocov K}
    {t w : Nat → Nat → K} (L : SLevel u q m M A t w) {k : Nat} (hk : k < m) (idx : List Nat)
    (hi : idx.Nodup) (hlt : ∀ i ∈ idx, i < m)
    (hB : (1 + u) ^ (q + 4 * idx.length + 4) * size (fun i j => t i j + w i j) k idx ≤ B)
    (hB2 : 2 * (idx.length : K) + 1 ≤ B) {r : K} (h : fDeltaTo ar A k idx = .ok r) :
    Near u (q + 4 * idx.length + 4) r ((idx.map fun i => t k i - w k i).sum + (idx.map fun i => t i k - w i k).sum + (t k k - w k k))
      (size (fun i j => t i j + w i j) k idx) := by
  have hk' : ∀ i ∈ idx, 0 ≤ t k i := fun i h => L.pos k hk i (hlt i h)
  have hk2 : ∀ i ∈ idx, 0 ≤ t i k := fun i h => L.pos i (hlt i h) k hk
  have hw1 : ∀ i ∈ idx, 0 ≤ w k i := fun i h => L.wpos k hk i (hlt i h)
  have hw2 : ∀ i ∈ idx, 0 ≤ w i k := fun i h => L.wpos i (hlt i h) k hk
  have htk := L.pos k hk k hk
  have hwk := L.wpos k hk k hk
  have s1 := map_sum_nonneg idx (fun i => t k i) hk'
  have s2 := map_sum_nonneg idx (fun i => t i k) hk2
  have s3 := map_sum_nonneg idx (fun i => w k i) hw1
  have s4 := map_sum_nonneg idx (fun i => w i k) hw2
  have hsz : size (fun i j => t i j + w i j) k idx = (idx.map fun i => t k i).sum
      + (idx.map fun i => t i k).sum + t k k + ((idx.map fun i => w k i).sum
      + (idx.map fun i => w i k).sum + w k k) := by
    unfold size
    rw [List.sum_map_add, List.sum_map_add]
    ring
  have step : ∀ q' ≤ q + 4 * idx.length + 4, ∀ z, z ≤ size (fun i j => t i j + w i j) k idx →
      (1 + u) ^ q' * z ≤ B := by
    intro q' hq' z hz
    refine le_trans (mul_le_mul_of_nonneg_left hz (by positivity)) (le_trans ?_ hB)
    exact mul_le_mul_of_nonneg_right (pow_le_pow_right₀ (by linarith) hq') (by rw [hsz]; linarith)
  rw [hsz] at step
  have n1 := addIn_near hr hu (A.PT.row k) (L.row_nodup k hk) idx hi (fun i => t k i)
    (fun e he => (L.row_near k hk e he).2) (fun j hj hn => L.row_zero k hk j (hlt j hj) hn) q le_rfl
    0 0 0 (Near.zero.mono hu (by omega)) (step _ (by omega) _ (by linarith))
  have n2 := addIn_near hr hu (A.PTcsc.row k) (L.col_nodup k hk) idx hi (fun i => t i k)
    (fun e he => (L.col_near k hk e he).2) (fun j hj hn => L.col_zero k hk j (hlt j hj) hn)
    (q + idx.length) (by omega) _ _ _ n1 (step _ (by omega) _ (by linarith))
  obtain ⟨o, ho, hod⟩ := L.diag k hk
  have n3 : Near u (q + 2 * idx.length + 1)
      (addDiag ar (addIn ar (A.PTcsc.row k) idx (addIn ar (A.PT.row k) idx 0)) o)
      (0 + (idx.map fun i => t k i).sum + (idx.map fun i => t i k).sum + t k k)
      (0 + (idx.map fun i => t k i).sum + (idx.map fun i => t i k).sum + t k k) := by
    rcases hod with ⟨rfl, h0⟩ | ⟨d, rfl, hd⟩
    · rw [h0, add_zero]
      exact n2.mono hu (by omega)
    · have := Near.add hr.toRounds hu n2 (hd.mono hu (by omega : q ≤ q + idx.length + idx.length))
        (step _ (by omega) _ (by linarith))
      exact this.mono hu (by omega)
  unfold fDeltaTo at h
  rw [ho, hr.zero] at h
  simp only at h
  have hw := L.weights
  cases hA : A.w with
  | scalars a b =>
    rw [hA] at h hw
    simp only [Except.ok.injEq] at h hw
    have hab : w k k = a * b := hw k hk k hk
    have hab0 : 0 ≤ a * b := hab ▸ hwk
    have e1 : (idx.map fun i => w k i).sum = idx.length * (a * b) := by
      rw [List.map_congr_left (g := fun _ => a * b) fun i h => hw k hk i (hlt i h), sum_map_const]
    have e2 : (idx.map fun i => w i k).sum = idx.length * (a * b) := by
      rw [List.map_congr_left (g := fun _ => a * b) fun i h => hw i (hlt i h) k hk, sum_map_const]
    have hl : (0 : K) ≤ idx.length := Nat.cast_nonneg _
    have hc0 : (0 : K) ≤ (((2 * (idx.length : Int) + 1) : Int) : K) := by push_cast; linarith
    have c1 : Near u 1 (ar.ofInt (2 * (idx.length : Int) + 1)) (((2 * (idx.length : Int) + 1) : Int) : K)
        (((2 * (idx.length : Int) + 1) : Int) : K) := by
      have h1 := hr.ofInt (2 * (idx.length : Int) + 1) (by rw [abs_of_nonneg hc0]; push_cast; linarith)
      rw [abs_of_nonneg hc0] at h1
      refine ⟨?_, le_of_eq (abs_of_nonneg hc0)⟩
      rw [pow_one]
      have : 1 + u - 1 = u := by ring
      rw [this]
      exact h1
    have c2 : Near u 1 (ar.mul a b) (a * b) (a * b) := by
      have h0 : Near u 0 (a * b) (a * b) (a * b) := by simp [Near, abs_of_nonneg hab0]
      have h1 : |a * b| ≤ B := by
        rw [abs_of_nonneg hab0]
        have := step 0 (by omega) (w k k) (by linarith)
        rw [pow_zero, one_mul, hab] at this
        exact this
      exact near_round hu h0 (hr.mul a b h1)
    have c3 := near_mul hu c1 c2
    have hle : (((2 * (idx.length : Int) + 1) : Int) : K) * (a * b) ≤ (idx.map fun i => w k i).sum
        + (idx.map fun i => w i k).sum + w k k := by
      rw [e1, e2, hab]
      push_cast
      linarith
    have c4 := near_round hu c3 (hr.mul _ _ (by
      refine le_trans c3.bound (step _ (by omega) _ (by linarith))))
    have c5 := Near.sub hr.toRounds hu (n3.mono hu (by omega : _ ≤ q + 2 * idx.length + 3))
      (c4.mono hu (by omega : _ ≤ q + 2 * idx.length + 3)) (step _ (by omega) _ (by linarith))
    rw [h] at c5
    have c6 := near_size hu (c5.mono hu (by omega : _ ≤ q + 4 * idx.length + 4))
      (show _ ≤ size (fun i j => t i j + w i j) k idx by rw [hsz]; linarith)
    have e3 : ((idx.map fun i => t k i - w k i).sum + (idx.map fun i => t i k - w i k).sum + (t k k - w k k))
        = 0 + (idx.map fun i => t k i).sum + (idx.map fun i => t i k).sum + t k k - (((2 * (idx.length : Int) + 1) : Int) : K) * (a * b) := by
      rw [sum_map_sub, sum_map_sub, e1, e2, hab]
      push_cast
      ring
    rw [e3]
    exact c6
  | vectors p1 p2 =>
    rw [hA] at h hw
    simp only [Except.ok.injEq] at h hw
    have hm : ∀ i < m, ∀ j < m, w i j ≤ (idx.map fun i => t k i).sum
        + (idx.map fun i => t i k).sum + t k k + ((idx.map fun i => w k i).sum
        + (idx.map fun i => w i k).sum + w k k) →
        Near u (q + 1) (ar.mul (p1 i) (p2 j)) (w i j) (w i j) := by
      intro i h1 j h2 h3
      have c1 := hw i h1 j h2
      exact near_round hu c1 (hr.mul _ _ (le_trans c1.bound (step _ (by omega) _ h3)))
    have hle1 : ∀ i ∈ idx, w k i ≤ (idx.map fun i => w k i).sum := fun i h =>
      le_map_sum idx (fun i => w k i) hw1 i h
    have hle2 : ∀ i ∈ idx, w i k ≤ (idx.map fun i => w i k).sum := fun i h =>
      le_map_sum idx (fun i => w i k) hw2 i h
    have n4 := fold_sub hr.toRounds hu (fun i j => ar.mul (p1 i) (p2 j)) w w k idx (q0 := q + 1)
      (fun i h => hm k hk i (hlt i h) (by have := hle1 i h; linarith))
      (fun i h => hm i (hlt i h) k hk (by have := hle2 i h; linarith))
      (q + 2 * idx.length + 1) (by omega) _ _ _ n3 (step _ (by omega) _ (by linarith))
    have n5 := Near.sub hr.toRounds hu n4
      ((hm k hk k hk (by linarith)).mono hu (by omega : _ ≤ q + 2 * idx.length + 1 + 2 * idx.length))
      (step _ (by omega) _ (by linarith))
    rw [h] at n5
    have n6 := near_size hu (n5.mono hu (by omega : _ ≤ q + 4 * idx.length + 4))
      (show _ ≤ size (fun i j => t i j + w i j) k idx by rw [hsz]; linarith)
    have e3 : ((idx.map fun i => t k i - w k i).sum + (idx.map fun i => t i k - w i k).sum + (t k k - w k k))
        = 0 + (idx.map fun i => t k i).sum + (idx.map fun i => t i k).sum + t k k
          - ((idx.map fun i => w k i).sum + (idx.map fun i => w i k).sum) - w k k := by
      rw [sum_map_sub, sum_map_sub]
      ring
    rw [e3]
    exact n6

theorem fDeltaOut_near (hr : RoundsS u B ar) (hu : 0 ≤ u) {q m : Nat} {M : K} {A : Autocov K}
    {t w : Nat → Nat → K} (L : SLevel u q m M A t w) {k : Nat} (hk : k < m) (idx : List Nat)
    (hi : idx.Nodup) (hlt : ∀ i ∈ idx, i < m) (hne : 1 ≤ idx.length)
    (hB : (1 + u) ^ (q + 4 * idx.length + 4) * size (fun i j => t i j + w i j) k idx ≤ B)
    (hB2 : 2 * (idx.length : K) + 1 ≤ B) {r : K} (h : fDeltaOut ar A k idx = .ok r) :
    Near u (q + 4 * idx.length + 4) r (-(idx.map fun i => t k i - w k i).sum - (idx.map fun i => t i k - w i k).sum + (t k k - w k k))
      (size (fun i j => t i j + w i j) k idx) := by
  have hk' : ∀ i ∈ idx, 0 ≤ t k i := fun i h => L.pos k hk i (hlt i h)
  have hk2 : ∀ i ∈ idx, 0 ≤ t i k := fun i h => L.pos i (hlt i h) k hk
  have hw1 : ∀ i ∈ idx, 0 ≤ w k i := fun i h => L.wpos k hk i (hlt i h)
  have hw2 : ∀ i ∈ idx, 0 ≤ w i k := fun i h => L.wpos i (hlt i h) k hk
  have htk := L.pos k hk k hk
  have hwk := L.wpos k hk k hk
  have s1 := map_sum_nonneg idx (fun i => t k i) hk'
  have s2 := map_sum_nonneg idx (fun i => t i k) hk2
  have s3 := map_sum_nonneg idx (fun i => w k i) hw1
  have s4 := map_sum_nonneg idx (fun i => w i k) hw2
  have hsz : size (fun i j => t i j + w i j) k idx = (idx.map fun i => t k i).sum
      + (idx.map fun i => t i k).sum + t k k + ((idx.map fun i => w k i).sum
      + (idx.map fun i => w i k).sum + w k k) := by
    unfold size
    rw [List.sum_map_add, List.sum_map_add]
    ring
  have step : ∀ q' ≤ q + 4 * idx.length + 4, ∀ z, z ≤ size (fun i j => t i j + w i j) k idx →
      (1 + u) ^ q' * z ≤ B := by
    intro q' hq' z hz
    refine le_trans (mul_le_mul_of_nonneg_left hz (by positivity)) (le_trans ?_ hB)
    exact mul_le_mul_of_nonneg_right (pow_le_pow_right₀ (by linarith) hq') (by rw [hsz]; linarith)
  rw [hsz] at step
  have n1 := subIn_near hr hu (A.PT.row k) (L.row_nodup k hk) idx hi (fun i => t k i)
    (fun e he => (L.row_near k hk e he).2) (fun j hj hn => L.row_zero k hk j (hlt j hj) hn) q le_rfl
    0 0 0 (Near.zero.mono hu (by omega)) (step _ (by omega) _ (by linarith))
  have n2 := subIn_near hr hu (A.PTcsc.row k) (L.col_nodup k hk) idx hi (fun i => t i k)
    (fun e he => (L.col_near k hk e he).2) (fun j hj hn => L.col_zero k hk j (hlt j hj) hn)
    (q + idx.length) (by omega) _ _ _ n1 (step _ (by omega) _ (by linarith))
  obtain ⟨o, ho, hod⟩ := L.diag k hk
  have n3 : Near u (q + 2 * idx.length + 1)
      (addDiag ar (subIn ar (A.PTcsc.row k) idx (subIn ar (A.PT.row k) idx 0)) o)
      (0 - (idx.map fun i => t k i).sum - (idx.map fun i => t i k).sum + t k k)
      (0 + (idx.map fun i => t k i).sum + (idx.map fun i => t i k).sum + t k k) := by
    rcases hod with ⟨rfl, h0⟩ | ⟨d, rfl, hd⟩
    · rw [h0, add_zero, add_zero]
      exact n2.mono hu (by omega)
    · have := Near.add hr.toRounds hu n2 (hd.mono hu (by omega : q ≤ q + idx.length + idx.length))
        (step _ (by omega) _ (by linarith))
      exact this.mono hu (by omega)
  unfold fDeltaOut at h
  rw [ho, hr.zero] at h
  simp only at h
  have hw := L.weights
  cases hA : A.w with
  | scalars a b =>
    rw [hA] at h hw
    simp only [Except.ok.injEq] at h hw
    have hab : w k k = a * b := hw k hk k hk
    have hab0 : 0 ≤ a * b := hab ▸ hwk
    have e1 : (idx.map fun i => w k i).sum = idx.length * (a * b) := by
      rw [List.map_congr_left (g := fun _ => a * b) fun i h => hw k hk i (hlt i h), sum_map_const]
    have e2 : (idx.map fun i => w i k).sum = idx.length * (a * b) := by
      rw [List.map_congr_left (g := fun _ => a * b) fun i h => hw i (hlt i h) k hk, sum_map_const]
    have hl : (0 : K) ≤ idx.length := Nat.cast_nonneg _
    have hl1 : (1 : K) ≤ idx.length := by exact_mod_cast hne
    have hc0 : (0 : K) ≤ (((2 * (idx.length : Int) - 1) : Int) : K) := by push_cast; linarith
    have c1 : Near u 1 (ar.ofInt (2 * (idx.length : Int) - 1)) (((2 * (idx.length : Int) - 1) : Int) : K)
        (((2 * (idx.length : Int) - 1) : Int) : K) := by
      have h1 := hr.ofInt (2 * (idx.length : Int) - 1) (by rw [abs_of_nonneg hc0]; push_cast; linarith)
      rw [abs_of_nonneg hc0] at h1
      refine ⟨?_, le_of_eq (abs_of_nonneg hc0)⟩
      rw [pow_one]
      have : 1 + u - 1 = u := by ring
      rw [this]
      exact h1
    have c2 : Near u 1 (ar.mul a b) (a * b) (a * b) := by
      have h0 : Near u 0 (a * b) (a * b) (a * b) := by simp [Near, abs_of_nonneg hab0]
      have h1 : |a * b| ≤ B := by
        rw [abs_of_nonneg hab0]
        have := step 0 (by omega) (w k k) (by linarith)
        rw [pow_zero, one_mul, hab] at this
        exact this
      exact near_round hu h0 (hr.mul a b h1)
    have c3 := near_mul hu c1 c2
    have hle : (((2 * (idx.length : Int) - 1) : Int) : K) * (a * b) ≤ (idx.map fun i => w k i).sum
        + (idx.map fun i => w i k).sum + w k k := by
      rw [e1, e2, hab]
      push_cast
      linarith
    have c4 := near_round hu c3 (hr.mul _ _ (by
      refine le_trans c3.bound (step _ (by omega) _ (by linarith))))
    have c5 := Near.add hr.toRounds hu (n3.mono hu (by omega : _ ≤ q + 2 * idx.length + 3))
      (c4.mono hu (by omega : _ ≤ q + 2 * idx.length + 3)) (step _ (by omega) _ (by linarith))
    rw [h] at c5
    have c6 := near_size hu (c5.mono hu (by omega : _ ≤ q + 4 * idx.length + 4))
      (show _ ≤ size (fun i j => t i j + w i j) k idx by rw [hsz]; linarith)
    have e3 : (-(idx.map fun i => t k i - w k i).sum - (idx.map fun i => t i k - w i k).sum + (t k k - w k k))
        = 0 - (idx.map fun i => t k i).sum - (idx.map fun i => t i k).sum + t k k + (((2 * (idx.length : Int) - 1) : Int) : K) * (a * b) := by
      rw [sum_map_sub, sum_map_sub, e1, e2, hab]
      push_cast
      ring
    rw [e3]
    exact c6
  | vectors p1 p2 =>
    rw [hA] at h hw
    simp only [Except.ok.injEq] at h hw
    have hm : ∀ i < m, ∀ j < m, w i j ≤ (idx.map fun i => t k i).sum
        + (idx.map fun i => t i k).sum + t k k + ((idx.map fun i => w k i).sum
        + (idx.map fun i => w i k).sum + w k k) →
        Near u (q + 1) (ar.mul (p1 i) (p2 j)) (w i j) (w i j) := by
      intro i h1 j h2 h3
      have c1 := hw i h1 j h2
      exact near_round hu c1 (hr.mul _ _ (le_trans c1.bound (step _ (by omega) _ h3)))
    have hle1 : ∀ i ∈ idx, w k i ≤ (idx.map fun i => w k i).sum := fun i h =>
      le_map_sum idx (fun i => w k i) hw1 i h
    have hle2 : ∀ i ∈ idx, w i k ≤ (idx.map fun i => w i k).sum := fun i h =>
      le_map_sum idx (fun i => w i k) hw2 i h
    have n4 := fold_add hr.toRounds hu (fun i j => ar.mul (p1 i) (p2 j)) w w k idx (q0 := q + 1)
      (fun i h => hm k hk i (hlt i h) (by have := hle1 i h; linarith))
      (fun i h => hm i (hlt i h) k hk (by have := hle2 i h; linarith))
      (q + 2 * idx.length + 1) (by omega) _ _ _ n3 (step _ (by omega) _ (by linarith))
    have n5 := Near.sub hr.toRounds hu n4
      ((hm k hk k hk (by linarith)).mono hu (by omega : _ ≤ q + 2 * idx.length + 1 + 2 * idx.length))
      (step _ (by omega) _ (by linarith))
    rw [h] at n5
    have n6 := near_size hu (n5.mono hu (by omega : _ ≤ q + 4 * idx.length + 4))
      (show _ ≤ size (fun i j => t i j + w i j) k idx by rw [hsz]; linarith)
    have e3 : (-(idx.map fun i => t k i - w k i).sum - (idx.map fun i => t i k - w i k).sum + (t k k - w k k))
        = 0 - (idx.map fun i => t k i).sum - (idx.map fun i => t i k).sum + t k k
          + ((idx.map fun i => w k i).sum + (idx.map fun i => w i k).sum) - w k k := by
      rw [sum_map_sub, sum_map_sub]
      ring
    rw [e3]
    exact n6

end Verif.SparseRound
