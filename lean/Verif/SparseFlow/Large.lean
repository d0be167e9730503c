import Verif.SparseFlow.Props
import Mathlib.Analysis.Real.Sqrt

/-!
# Covariances that pass for zero: property C105
-/

set_option linter.dupNamespace false
set_option linter.unusedSectionVars false

namespace Verif.SparseFlow

open Verif.Csr Verif.Autocov Verif.SparseStoch
open Verif.SparseLouvain (Fit Fresh Tight mkS sFindLouvain sStability SErr)
open Verif.Louvain (Sched Params pairStability sIsZero)
open Verif.Partition (Consistent Together Part singletons)
open Verif.Trans (Mat EqOn Stoch)
open Verif.Flow (meanCov flowSteps along covAt after)

variable {K : Type} [Field K] [LinearOrder K] [IsStrictOrderedRing K]

/-- **C105, partial.**  If a covariance of `n` nodes passes for zero, no partition of the nodes has a
stability above `n² / 10⁸ + 1 / 10⁵`.  Missing: this says nothing once `n` reaches ten thousand, see
below. -/
theorem C105_bound_partial (A : Autocov K) (hg : Good A) (hz : A.isAllZeros = true) (p1 p2 : Nat → K)
    (h1 : Distribution A.PT.nrows p1) (h2 : Distribution A.PT.nrows p2)
    (hw : ∀ i < A.PT.nrows, ∀ j < A.PT.nrows, A.w.p0 i j = p1 i * p2 j)
    (P : Part) (hP : P.numNodes = A.PT.nrows) :
    pairStability A.toarray P ≤ (A.PT.nrows : K) ^ 2 / 10 ^ 8 + 1 / 10 ^ 5 := by
  set n := A.PT.nrows with hn
  have hb : ∀ i < n, ∀ j < n, A.toarray i j ≤ 1 / 10 ^ 8 + 1 / 10 ^ 5 * (p1 i * p2 j) := by
    intro i hi j hj
    have hpp : 0 ≤ p1 i * p2 j := mul_nonneg (h1.1 i hi) (h2.1 j hj)
    have hpos : (0 : K) ≤ 1 / 10 ^ 8 + 1 / 10 ^ 5 * (p1 i * p2 j) := by positivity
    unfold Autocov.toarray
    rw [hw i hi j hj]
    by_cases he : ∃ e ∈ A.PT.row i, e.1 = j
    · obtain ⟨e, he, rfl⟩ := he
      have hv : A.PT.val i e.1 = e.2 := sumAt_of_mem _ (hg.noRepeats i hi) e he
      unfold Autocov.isAllZeros at hz
      rw [List.all_eq_true] at hz
      have h3 := hz i (List.mem_range.2 hi)
      rw [List.all_eq_true] at h3
      have h4 := h3 e he
      unfold allclose at h4
      rw [decide_eq_true_eq, hw i hi e.1 hj, abs_of_nonneg hpp] at h4
      rw [hv]
      exact (le_abs_self _).trans h4
    · have hv : A.PT.val i j = 0 := by
        unfold Csr.val
        exact sumAt_eq_zero _ _ fun e he1 he2 => he ⟨e, he1, he2⟩
      rw [hv]
      linarith
  calc pairStability A.toarray P ≤ ∑ i ∈ Finset.range n, ∑ j ∈ Finset.range n, (1 / 10 ^ 8 + 1 / 10 ^ 5 * (p1 i * p2 j)) := by
        unfold pairStability
        rw [hP]
        apply Finset.sum_le_sum
        intro i hi
        apply Finset.sum_le_sum
        intro j hj
        rw [Finset.mem_range] at hi hj
        split
        · exact hb i hi j hj
        · have hpp : 0 ≤ p1 i * p2 j := mul_nonneg (h1.1 i hi) (h2.1 j hj)
          positivity
    _ = _ := by
        simp only [Finset.sum_add_distrib, Finset.sum_const, Finset.card_range, nsmul_eq_mul, ← Finset.mul_sum]
        rw [h2.2]
        simp only [mul_one]
        rw [h1.2]
        ring

/-! ## Two halves -/

/-- Whether two of `2 h` nodes are in the same half. -/
def sameHalf (h i j : Nat) : Prop := (i < h ↔ j < h)

instance (h i j : Nat) : Decidable (sameHalf h i j) := by unfold sameHalf; infer_instance

/-- Two halves of `h` nodes each: a walker goes to any node of its own half, and never to the other
half. -/
def halves (K : Type) [Field K] (h : Nat) : Csr K :=
  ofRows (2 * h) ((List.range (2 * h)).map fun i => (List.range (2 * h)).filterMap fun j =>
    if sameHalf h i j then some (j, 1 / (h : K)) else none)

theorem row_halves {h i : Nat} (hi : i < 2 * h) : (halves K h).row i = (List.range (2 * h)).filterMap fun j =>
    if sameHalf h i j then some (j, 1 / (h : K)) else none := row_ofRows_map _ _ _ _ hi

theorem mem_row_halves {h i : Nat} (hi : i < 2 * h) (e : Nat × K) :
    e ∈ (halves K h).row i ↔ e.1 < 2 * h ∧ sameHalf h i e.1 ∧ e.2 = 1 / (h : K) := by
  rw [row_halves hi, List.mem_filterMap]
  constructor
  · rintro ⟨j, hj, he⟩
    split at he
    · rename_i hs
      injection he with he
      subst he
      exact ⟨List.mem_range.1 hj, hs, rfl⟩
    · cases he
  · rintro ⟨h1, h2, h3⟩
    refine ⟨e.1, List.mem_range.2 h1, ?_⟩
    rw [if_pos h2, ← h3]

theorem nodup_halves {h i : Nat} (hi : i < 2 * h) : (((halves K h).row i).map Prod.fst).Nodup := by
  rw [row_halves hi, List.map_filterMap]
  have : (fun j => Option.map Prod.fst (if sameHalf h i j then some (j, 1 / (h : K)) else none)) =
      fun j => if sameHalf h i j then some j else none := by
    funext j
    split <;> rfl
  rw [this]
  apply List.Nodup.filterMap _ (List.nodup_range)
  intro a b c ha hb
  split at ha <;> split at hb <;> simp_all

theorem val_halves {h i j : Nat} (hi : i < 2 * h) (hj : j < 2 * h) :
    (halves K h).val i j = if sameHalf h i j then 1 / (h : K) else 0 := by
  split
  · rename_i hs
    exact sumAt_of_mem _ (nodup_halves hi) (j, 1 / (h : K)) ((mem_row_halves hi _).2 ⟨hj, hs, rfl⟩)
  · rename_i hs
    unfold Csr.val
    refine sumAt_eq_zero _ _ fun e he1 he2 => ?_
    have := ((mem_row_halves hi e).1 he1).2.1
    rw [he2] at this
    exact hs this

theorem sq_halves (h : Nat) : Sq (2 * h) (halves K h) := by
  refine ⟨wf_ofRows _ _ fun r hr e he => ?_, by simp [halves], by simp [halves]⟩
  obtain ⟨i, hi, rfl⟩ := List.mem_map.1 hr
  rw [List.mem_range] at hi
  rw [← row_halves (K := K) hi] at he
  exact ((mem_row_halves hi e).1 he).1

theorem sum_half (h i : Nat) (c : K) :
    ∑ j ∈ Finset.range (2 * h), (if sameHalf h i j then c else 0) = h * c := by
  rw [two_mul, Finset.sum_range_add]
  by_cases hh : i < h
  · have e1 : ∀ j ∈ Finset.range h, (if sameHalf h i j then c else 0) = c := fun j hj => by
      rw [if_pos]; unfold sameHalf; exact ⟨fun _ => Finset.mem_range.1 hj, fun _ => hh⟩
    have e2 : ∀ j ∈ Finset.range h, (if sameHalf h i (h + j) then c else 0) = 0 := fun j hj => by
      rw [if_neg]; unfold sameHalf; intro hc; have := hc.1 hh; omega
    rw [Finset.sum_congr rfl e1, Finset.sum_congr rfl e2]
    simp
  · have e1 : ∀ j ∈ Finset.range h, (if sameHalf h i j then c else 0) = 0 := fun j hj => by
      rw [if_neg]; unfold sameHalf; intro hc; exact hh (hc.2 (Finset.mem_range.1 hj))
    have e2 : ∀ j ∈ Finset.range h, (if sameHalf h i (h + j) then c else 0) = c := fun j hj => by
      rw [if_pos]; unfold sameHalf; constructor
      · intro hc; exact absurd hc hh
      · intro hc; omega
    rw [Finset.sum_congr rfl e1, Finset.sum_congr rfl e2]
    simp

theorem stoch_halves {h : Nat} (hh : 0 < h) : Stoch (2 * h) (halves K h).val := by
  have hK : (h : K) ≠ 0 := by exact_mod_cast hh.ne'
  intro i hi
  constructor
  · intro j hj
    rw [val_halves hi hj]
    split
    · positivity
    · exact le_refl _
  · rw [Finset.sum_congr rfl fun j hj => val_halves hi (Finset.mem_range.1 hj), sum_half h i]
    field_simp

theorem sameHalf_symm {h i j : Nat} : sameHalf h i j ↔ sameHalf h j i := by unfold sameHalf; exact Iff.comm

/-- The covariance of the two halves: `1 / n²` inside the halves and `-1 / n²` between them. -/
theorem cov_halves {h : Nat} (hh : 0 < h) {i j : Nat} (hi : i < 2 * h) (hj : j < 2 * h) :
    covAt (2 * h) (uniform (2 * h)) (halves K h).val i j =
      if sameHalf h i j then 1 / (((2 * h : Nat) : K)) ^ 2 else -(1 / (((2 * h : Nat) : K)) ^ 2) := by
  have hK : (h : K) ≠ 0 := by exact_mod_cast hh.ne'
  have hK2 : ((2 * h : Nat) : K) ≠ 0 := by exact_mod_cast (by omega : 2 * h ≠ 0)
  have hcast : ((2 * h : Nat) : K) = 2 * h := by push_cast; ring
  have hafter : ∀ k < 2 * h, after (2 * h) (uniform (2 * h)) (halves K h).val k = 1 / ((2 * h : Nat) : K) := by
    intro k hk
    unfold after uniform
    rw [← Finset.mul_sum, Finset.sum_congr rfl fun i hi => (val_halves (Finset.mem_range.1 hi) hk).trans
      (if_congr sameHalf_symm rfl rfl), sum_half h k]
    field_simp
  unfold covAt
  have hterm : ∀ k ∈ Finset.range (2 * h), (if after (2 * h) (uniform (2 * h)) (halves K h).val k = 0 then 0 else
      (uniform (2 * h) i * (halves K h).val i k) * (uniform (2 * h) j * (halves K h).val j k) /
        after (2 * h) (uniform (2 * h)) (halves K h).val k) =
      if sameHalf h i k then (if sameHalf h i j then 1 / ((2 * h : Nat) : K) * (1 / h * (1 / h)) else 0) else 0 := by
    intro k hk
    rw [Finset.mem_range] at hk
    rw [hafter k hk, if_neg (one_div_ne_zero hK2), val_halves hi hk, val_halves hj hk]
    unfold uniform
    by_cases h1 : sameHalf h i k
    · rw [if_pos h1, if_pos h1]
      by_cases h2 : sameHalf h i j
      · rw [if_pos h2, if_pos (by unfold sameHalf at *; exact h2.symm.trans h1)]
        field_simp
      · rw [if_neg h2, if_neg (by unfold sameHalf at *; exact fun h3 => h2 (h1.trans h3.symm))]
        ring
    · rw [if_neg h1, if_neg h1]
      ring
  rw [Finset.sum_congr rfl hterm, sum_half h i]
  unfold uniform
  split
  · rw [hcast]; field_simp; ring
  · ring

/-- The two halves as a flow over one unit of time, from equal probabilities. -/
def halvesInput (h : Nat) (rtol : K) (be : Backend) (mkl : Bool) (sqrt : K → K) : SInput K :=
  ⟨some (.inter [halves K h]), none, some [0, 1], none, false, rtol, be, mkl, sqrt⟩

theorem uniform_sum {n : Nat} (hn : 0 < n) : Distribution n (uniform n : Nat → K) := by
  have hK : (n : K) ≠ 0 := by exact_mod_cast hn.ne'
  refine ⟨fun i _ => by unfold uniform; positivity, ?_⟩
  unfold uniform
  rw [Finset.sum_const, Finset.card_range, nsmul_eq_mul]
  field_simp

theorem halves_regular {h : Nat} (hh : 0 < h) {rtol : K} (hr : 0 ≤ rtol) (be : Backend) (mkl : Bool) {sqrt : K → K}
    (hs : ∀ x : K, 0 ≤ x → sqrt x * sqrt x = x) :
    SRegular (halvesInput h rtol be mkl sqrt) (2 * h) [halves K h] [0, 1] ((2 * h : Nat) : K) where
  mats := rfl
  times := rfl
  nonempty := by simp
  size := by omega
  arrays := by
    intro M hM
    rw [List.mem_singleton.1 hM]
    exact sq_halves h
  stoch := by
    intro M hM
    rw [List.mem_singleton.1 hM]
    exact stoch_halves hh
  increasing := by simp
  length := rfl
  dist := uniform_sum (by omega)
  least := by
    intro i _
    have hK : ((2 * h : Nat) : K) ≠ 0 := by exact_mod_cast (by omega : 2 * h ≠ 0)
    show (1 : K) ≤ ((2 * h : Nat) : K) * (1 / ((2 * h : Nat) : K))
    rw [mul_one_div, div_self hK]
  rtol := hr
  sqrt := hs

theorem mean_halves {h i j : Nat} (hi : i < 2 * h) (hj : j < 2 * h) :
    meanCov (2 * h) (uniform (2 * h)) (flowSteps (2 * h) false [(halves K h).val] [0, 1] 1) i j =
      covAt (2 * h) (uniform (2 * h)) (halves K h).val i j := by
  have e : EqOn (2 * h) (Trans.prod (2 * h) [(halves K h).val]) (halves K h).val := by
    intro i hi j hj
    show Trans.mul (2 * h) (halves K h).val Trans.eye i j = _
    unfold Trans.mul Trans.eye
    simp [hj]
  rw [← Flow.covAt_congr (uniform (2 * h)) e i hi j hj]
  unfold meanCov flowSteps
  simp

/-- The partition into the two halves. -/
theorem half_partition (h : Nat) : ∃ Q : Part, Consistent Q ∧ Q.numNodes = 2 * h ∧
    ∀ u < 2 * h, ∀ v < 2 * h, Together Q.clusters u v ↔ sameHalf h u v := by
  set cl : List (Finset Nat) := [Finset.range h, Finset.Ico h (2 * h)] with hcl
  have hat : ∀ i v, Partition.At cl i v ↔ (i = 0 ∧ v < h) ∨ (i = 1 ∧ h ≤ v ∧ v < 2 * h) := by
    intro i v
    unfold Partition.At
    rcases i with _ | _ | i
    · simp [hcl]
    · simp [hcl]
    · simp [hcl]
  have hp : Partition.IsPartition (2 * h) cl := by
    intro v
    constructor
    · intro hv
      by_cases hvh : v < h
      · refine ⟨0, (hat 0 v).2 (.inl ⟨rfl, hvh⟩), fun i hi => ?_⟩
        rcases (hat i v).1 hi with ⟨h1, -⟩ | ⟨-, h1, -⟩
        · exact h1
        · omega
      · refine ⟨1, (hat 1 v).2 (.inr ⟨rfl, by omega, hv⟩), fun i hi => ?_⟩
        rcases (hat i v).1 hi with ⟨-, h1⟩ | ⟨h1, -⟩
        · omega
        · exact h1
    · intro hv i hi
      rcases (hat i v).1 hi with ⟨-, h1⟩ | ⟨-, -, h1⟩ <;> omega
  refine ⟨⟨2 * h, cl, Partition.dictOf cl⟩, ⟨hp, fun v i => Partition.dictOf_spec _ hp.disj v i⟩, rfl, fun u hu v hv => ?_⟩
  unfold Together sameHalf
  constructor
  · rintro ⟨i, h1, h2⟩
    rcases (hat i u).1 h1 with ⟨a, b⟩ | ⟨a, b, -⟩ <;> rcases (hat i v).1 h2 with ⟨c, d⟩ | ⟨c, d, -⟩ <;> omega
  · intro hs
    by_cases hvh : u < h
    · exact ⟨0, (hat 0 u).2 (.inl ⟨rfl, hvh⟩), (hat 0 v).2 (.inl ⟨rfl, hs.1 hvh⟩)⟩
    · refine ⟨1, (hat 1 u).2 (.inr ⟨rfl, by omega, hu⟩), (hat 1 v).2 (.inr ⟨rfl, ?_, hv⟩)⟩
      by_contra hc
      exact hvh (hs.2 (by omega))

open Classical in
/-- **C105 fails for large networks.**  Take two halves of at least five thousand nodes each that
exchange nothing.  Whatever the random choices and limits, the sparse clustering of this flow puts all
nodes into one cluster, of stability zero, although the two halves have stability one half: the
entries of the covariance are below the absolute tolerance of its test.  The test of the dense class,
whose tolerance shrinks with the number of nodes, does not take this covariance for zero. -/
theorem C105_large_network_violated {h : Nat} (hh : 5000 ≤ h) {rtol : K} (hr : 0 ≤ rtol)
    (hlt : rtol * ((2 * h : Nat) : K) < 1) (be : Backend) (mkl : Bool) {sqrt : K → K}
    (hs : ∀ x : K, 0 ≤ x → sqrt x * sqrt x = x) (sc : Sched) (par : Params K) :
    ∃ o loops P Q, constructC (halvesInput h rtol be mkl sqrt) = .ok o ∧ findC sc par o 0 = .ok (loops, P) ∧
      (∀ u < 2 * h, ∀ v < 2 * h, Together P.clusters u v) ∧
      pairStability (covAt (2 * h) (uniform (2 * h)) (halves K h).val) P = 0 ∧
      Consistent Q ∧ Q.numNodes = 2 * h ∧
      pairStability (covAt (2 * h) (uniform (2 * h)) (halves K h).val) Q = 1 / 2 ∧
      ¬ sIsZero (2 * h) (covAt (2 * h) (uniform (2 * h)) (halves K h).val) := by
  have h0 : 0 < h := by omega
  have hreg := halves_regular (K := K) h0 hr be mkl hs
  obtain ⟨o, A, ho, hl, hk⟩ := C103_default hreg rfl
  have hN : (0 : K) < ((2 * h : Nat) : K) := by exact_mod_cast (by omega : 0 < 2 * h)
  have hbig : (10 : K) ^ 4 ≤ ((2 * h : Nat) : K) := by
    have : 10 ^ 4 ≤ 2 * h := by omega
    exact_mod_cast this
  set N := ((2 * h : Nat) : K) with hNdef
  have hN2 : 1 / N ^ 2 ≤ 1 / 10 ^ 8 := by
    apply one_div_le_one_div_of_le (by positivity)
    calc (10 : K) ^ 8 = (10 ^ 4) ^ 2 := by norm_num
      _ ≤ N ^ 2 := pow_le_pow_left₀ (by positivity) hbig 2
  have hpi : ∀ i, (halvesInput h rtol be mkl sqrt).p1.getD (uniform (2 * h)) i = 1 / N := fun i => rfl
  have hN0 : N ≠ 0 := hN.ne'
  have hmean : ∀ i < 2 * h, ∀ j < 2 * h,
      meanCov (2 * h) ((halvesInput h rtol be mkl sqrt).p1.getD (uniform (2 * h)))
        (flowSteps (2 * h) (halvesInput h rtol be mkl sqrt).reverse ([halves K h].map Csr.val) [0, 1] [halves K h].length) i j =
      if sameHalf h i j then 1 / N ^ 2 else -(1 / N ^ 2) := fun i hi j hj => (mean_halves hi hj).trans (cov_halves h0 hi hj)
  have hz : A.isAllZeros = true := by
    unfold Autocov.isAllZeros
    rw [List.all_eq_true]
    intro i hi
    rw [List.mem_range, hk.size] at hi
    rw [List.all_eq_true]
    intro e he
    have hi' : i < A.PT.nrows := by rw [hk.size]; exact hi
    have hj : e.1 < 2 * h := by
      have := hk.good.wf.row_lt i e he
      rw [hk.good.square, hk.size] at this
      exact this
    have hv : A.PT.val i e.1 = e.2 := sumAt_of_mem _ (hk.good.noRepeats i hi') e he
    have hpos := hk.tight.rows i hi' e he
    have hle := hk.le i hi e.1 hj
    have hge := hk.ge i hi e.1 hj
    rw [hmean i hi e.1 hj] at hle hge
    have hw := hk.weights i hi e.1 hj
    rw [hpi, hpi] at hw hge
    unfold Autocov.toarray at hle hge
    rw [hv] at hle hge
    have hpp : 1 / N * (1 / N) = 1 / N ^ 2 := by field_simp
    rw [hw, hpp] at hle hge
    have hNN : 0 < 1 / N ^ 2 := by positivity
    have herr : rtol * N * (([halves K h].length : Nat) : K) * (1 / N ^ 2) ≤ 1 / N ^ 2 := by
      have : (([halves K h].length : Nat) : K) = 1 := by simp
      rw [this, mul_one]
      calc rtol * N * (1 / N ^ 2) ≤ 1 * (1 / N ^ 2) := mul_le_mul_of_nonneg_right hlt.le hNN.le
        _ = _ := one_mul _
    have hrt : (halvesInput h rtol be mkl sqrt).rtol = rtol := rfl
    rw [hrt] at hge
    unfold allclose
    rw [decide_eq_true_eq, hw, hpp]
    have habs : |e.2 - 1 / N ^ 2| ≤ 1 / N ^ 2 := by
      rw [abs_le]
      split at hle
      · rename_i hsame
        rw [if_pos hsame] at hge
        constructor <;> linarith
      · constructor <;> linarith
    have h5 : 0 ≤ 1 / 10 ^ 5 * |1 / N ^ 2| := by positivity
    linarith
  rcases C104_find_partial hreg hlt ho sc par 0 with ⟨h1, -⟩ | ⟨A', m, loops, P, e1, -, e3, e4, e5, e6, -⟩
  · rw [hl] at h1
    simp at h1
  · rw [hl] at e1
    have hAA : A = A' := by simpa using e1
    subst hAA
    obtain ⟨Q, q1, q2, q3⟩ := half_partition h
    have hcov := fun i hi j hj => cov_halves (K := K) (i := i) (j := j) h0 hi hj
    refine ⟨o, loops, P, Q, ho, e3, e6 hz, ?_, q1, q2, ?_, ?_⟩
    · unfold pairStability
      rw [e5]
      have : ∀ i ∈ Finset.range (2 * h), (∑ j ∈ Finset.range (2 * h), if Together P.clusters i j then
          covAt (2 * h) (uniform (2 * h)) (halves K h).val i j else 0) = 0 := by
        intro i hi
        rw [Finset.mem_range] at hi
        have e : ∀ j ∈ Finset.range (2 * h), (if Together P.clusters i j then
            covAt (2 * h) (uniform (2 * h)) (halves K h).val i j else 0) =
            (if sameHalf h i j then 2 * (1 / N ^ 2) else 0) - 1 / N ^ 2 := by
          intro j hj
          rw [Finset.mem_range] at hj
          rw [if_pos (e6 hz i hi j hj), hcov i hi j hj]
          split <;> ring
        rw [Finset.sum_congr rfl e, Finset.sum_sub_distrib, sum_half, Finset.sum_const, Finset.card_range, nsmul_eq_mul,
          ← hNdef]
        have : N = 2 * (h : K) := by rw [hNdef]; push_cast; ring
        rw [this]
        ring
      rw [Finset.sum_congr rfl this, Finset.sum_const_zero]
    · unfold pairStability
      rw [q2]
      have : ∀ i ∈ Finset.range (2 * h), (∑ j ∈ Finset.range (2 * h), if Together Q.clusters i j then
          covAt (2 * h) (uniform (2 * h)) (halves K h).val i j else 0) = h * (1 / N ^ 2) := by
        intro i hi
        rw [Finset.mem_range] at hi
        rw [← sum_half h i (1 / N ^ 2)]
        apply Finset.sum_congr rfl
        intro j hj
        rw [Finset.mem_range] at hj
        by_cases hsame : sameHalf h i j
        · rw [if_pos ((q3 i hi j hj).2 hsame), if_pos hsame, hcov i hi j hj, if_pos hsame]
        · rw [if_neg (fun h => hsame ((q3 i hi j hj).1 h)), if_neg hsame]
      rw [Finset.sum_congr rfl this, Finset.sum_const, Finset.card_range, nsmul_eq_mul, ← hNdef]
      have : N = 2 * (h : K) := by rw [hNdef]; push_cast; ring
      have hK : (h : K) ≠ 0 := by exact_mod_cast h0.ne'
      rw [this]
      field_simp
    · intro hzero
      have := hzero 0 (by omega) 0 (by omega)
      rw [hcov 0 (by omega) 0 (by omega), if_pos (by unfold sameHalf; exact Iff.rfl), ← hNdef,
        abs_of_pos (by positivity)] at this
      have h6 : (1 : K) / 10 ^ 6 / N ^ 2 ≤ 1 / N ^ 2 := by
        apply div_le_div_of_nonneg_right _ (by positivity)
        norm_num
      exact absurd this (not_lt.2 h6)

/-! ## Examples -/

/-- Non-vacuity of `C103_integral`, `C103_default`, `C104_find_partial` and
`C105_large_network_violated`: with the default tolerance and the square root of the real numbers,
two halves of five thousand nodes. -/
example : SRegular (halvesInput 5000 (1 / 10 ^ 8 : ℝ) .compiled true Real.sqrt) (2 * 5000) [halves ℝ 5000] [0, 1]
    ((2 * 5000 : Nat) : ℝ) ∧ (1 / 10 ^ 8 : ℝ) * ((2 * 5000 : Nat) : ℝ) < 1 :=
  ⟨halves_regular (by norm_num) (by positivity) _ _ fun _ h => Real.mul_self_sqrt h, by norm_num⟩

/-- Five nodes that keep their walkers; the last one has none. -/
def exZero : SInput ℚ where
  mats := some (.inter [ofRows 5 [[(0, 1)], [(1, 1)], [(2, 1)], [(3, 1)], [(4, 1)]]])
  p1 := some fun i => if i = 4 then 0 else 1 / 4
  times := some [0, 1]
  grid := none
  reverse := false
  rtol := 1 / 10 ^ 8
  be := .compiled
  mkl := false
  sqrt := fun x => if x = 4 then 2 else 1

/-- What the object of the example holds: times, and for each covariance whether it passes for zero. -/
def zeroSummary : Option (List ℚ × List Bool) :=
  match constructC exZero with
  | .ok o => some (o.timeList, o.iList.map fun A => A.isAllZeros)
  | .error _ => none

/-- Non-vacuity of `C104_zero_probability_violated`. -/
example : (∀ M ∈ exZero.matrices, Sq 5 M) ∧ exZero.p1.getD (uniform 5) 4 = 0 ∧
    zeroSummary = some ([0, 1], [false]) := by
  refine ⟨?_, by decide +kernel, by decide +kernel⟩
  intro M hM
  have : M = ofRows 5 [[(0, 1)], [(1, 1)], [(2, 1)], [(3, 1)], [(4, 1)]] := by
    simpa [SInput.matrices, exZero] using hM
  rw [this]
  exact ⟨wf_ofRows _ _ (by decide +kernel), rfl, rfl⟩

/-- Non-vacuity of `C105_bound_partial`. -/
example : Good exN ∧ exN.isAllZeros = true ∧ Distribution exN.PT.nrows (fun _ => (1 / 2 : ℚ)) ∧
    ∀ i < exN.PT.nrows, ∀ j < exN.PT.nrows, exN.w.p0 i j = 1 / 2 * (1 / 2) :=
  ⟨good_mk _ _ _ ⟨by decide, by decide, by decide, by decide, by decide, by decide⟩ rfl
    (by unfold Csr.NoRepeats; decide +kernel) (by simp), by decide +kernel, ⟨by decide +kernel, by decide +kernel⟩,
    by decide +kernel⟩

end Verif.SparseFlow
