import Verif.SparseRound.Errors

/-!
# Error of a computed gain
-/

set_option linter.unusedSectionVars false

namespace Verif.SparseRound

open Verif.Partition Verif.Csr Verif.Autocov
open Verif.Louvain (stability gain_exact at_lt_n getCluster getCluster_nat)
open Verif.Rounding (Rounds absSum Near one_le_pow' fold_add fold_sub size list_sum_finset length_le)
open Verif.SparseLouvain (SErr SClu mkS sneighs)

variable {K : Type} [Field K] [LinearOrder K] [IsStrictOrderedRing K] {u B : K} {ar : SArith K}

theorem scan_nonneg (hr : RoundsS u B ar) (A : Autocov K) (lst : Finset Nat → List Nat)
    (p : Part) (v : Nat) (ci : Int) (rOut : K) (l : List Int) (best : K) (c : Int) (h0 : 0 ≤ best)
    (b : K) (c' : Int) (h : scan ar A lst p v ci rOut l best c = .ok (b, c')) : 0 ≤ b := by
  induction l generalizing best c with
  | nil =>
    simp only [scan, Except.ok.injEq, Prod.mk.injEq] at h
    exact h.1 ▸ h0
  | cons x l ih =>
    simp only [scan] at h
    split at h
    · split at h
      · simp at h
      · split at h
        · rename_i hle
          rw [hr.le, decide_eq_true_eq] at hle
          exact ih _ _ (le_trans h0 hle) h
        · exact ih _ _ h0 h
    · exact ih _ _ h0 h

/-- A computed gain is the exact change of stability up to rounding. -/
theorem moved_gain (hr : RoundsS u B ar) (hu : 0 ≤ u) {q m : Nat} {M : K} {A : Autocov K}
    {t w : Nat → Nat → K} (L : SLevel u q m M A t w)
    (hB : (1 + u) ^ (q + 4 * m + 5) * (4 * M) ≤ B) (hB2 : 2 * (m : K) + 1 ≤ B)
    (it : Finset Int → List Int) (lst : Finset Nat → List Nat)
    (hnd : ∀ c, (lst c).Nodup) (hmem : ∀ c v, v ∈ lst c ↔ v ∈ c) {p : Part} (h : Consistent p)
    (hn : p.numNodes = m) {v : Nat} (hv : v < m) {g : K} {p' : Part}
    (hm : Moved ar A it lst p v g p') :
    |g - (stability (fun i j => t i j - w i j) p' - stability (fun i j => t i j - w i j) p)|
      ≤ ((1 + u) ^ (q + 4 * m + 5) - 1) * (4 * M) ∧ 0 ≤ g := by
  obtain ⟨ci, cf, rOut, rIn, cs, hd, hne, hcf, hat, hout, hin, rfl, rfl, hscan, _⟩ := hm
  set x : Nat → Nat → K := fun i j => t i j - w i j with hx
  set A' : Nat → Nat → K := fun i j => t i j + w i j with hA'
  have hcv : v ∈ p.clusters.getD ci ∅ := at_getD.2 hat
  have hnotin : v ∉ p.clusters.getD cf ∅ := fun hf => hne (h.1.disj v ci cf hat (at_getD.1 hf))
  have hlt : ∀ k, ∀ w ∈ p.clusters.getD k ∅, w < m := by
    intro k w hw
    rw [← hn]
    exact at_lt_n h.1 (at_getD.1 hw)
  obtain ⟨eo, ei, heo, hei, hst⟩ := gain_exact x h hd hcf hne
  rw [hst]
  unfold deltaOut at hout
  rw [getCluster_nat (at_lt hat)] at hout
  simp only [hcv, not_true_eq_false, if_false] at hout
  unfold deltaTo at hin
  rw [getCluster_nat hcf] at hin
  simp only [hnotin, if_false] at hin
  unfold Louvain.deltaOut at heo
  rw [getCluster_nat (at_lt hat)] at heo
  simp only [hcv, not_true_eq_false, if_false, Except.ok.injEq] at heo
  unfold Louvain.deltaTo at hei
  rw [getCluster_nat hcf] at hei
  simp only [hnotin, if_false, Except.ok.injEq] at hei
  set co := p.clusters.getD ci ∅ with hco
  set cn := p.clusters.getD cf ∅ with hcn
  have hls : ∀ (c : Finset Nat) (f : Nat → K), ((lst c).map f).sum = ∑ i ∈ c, f i :=
    fun c f => list_sum_finset c (lst c) (hnd c) (hmem c) f
  have hA : ∀ i < m, ∀ j < m, 0 ≤ A' i j := fun i hi j hj =>
    add_nonneg (L.pos i hi j hj) (L.wpos i hi j hj)
  have hAvv := hA v hv v hv
  have hrow : ∑ j ∈ Finset.range m, A' v j ≤ M := by
    refine le_trans ?_ L.mass
    exact Finset.single_le_sum (f := fun i => ∑ j ∈ Finset.range m, A' i j)
      (fun i hi => Finset.sum_nonneg fun j hj => hA i (Finset.mem_range.1 hi) j (Finset.mem_range.1 hj))
      (Finset.mem_range.2 hv)
  have hcol : ∑ i ∈ Finset.range m, A' i v ≤ M := by
    refine le_trans ?_ L.mass
    apply Finset.sum_le_sum
    intro i hi
    exact Finset.single_le_sum (f := fun j => A' i j)
      (fun j hj => hA i (Finset.mem_range.1 hi) j (Finset.mem_range.1 hj)) (Finset.mem_range.2 hv)
  have hdiag : A' v v ≤ M := le_trans (Finset.single_le_sum (f := fun j => A' v j)
      (fun j hj => hA v hv j (Finset.mem_range.1 hj)) (Finset.mem_range.2 hv)) hrow
  have hdisj : Disjoint co cn := by
    rw [Finset.disjoint_left]
    intro w hw1 hw2
    exact hne (h.1.disj w ci cf (at_getD.1 hw1) (at_getD.1 hw2))
  have hsub : co ∪ cn ⊆ Finset.range m := by
    intro w hw
    rcases Finset.mem_union.1 hw with hw | hw
    · exact Finset.mem_range.2 (hlt ci w hw)
    · exact Finset.mem_range.2 (hlt cf w hw)
  have htwo : ∀ f : Nat → K, (∀ i < m, 0 ≤ f i) → ∑ i ∈ co, f i + ∑ i ∈ cn, f i
      ≤ ∑ i ∈ Finset.range m, f i := by
    intro f hf
    rw [← Finset.sum_union hdisj]
    exact Finset.sum_le_sum_of_subset_of_nonneg hsub fun i hi _ => hf i (Finset.mem_range.1 hi)
  have hrow2 := htwo (fun j => A' v j) (fun j hj => hA v hv j hj)
  have hcol2 := htwo (fun i => A' i v) (fun i hi => hA i hi v hv)
  have hso : size A' v (lst co) = ∑ i ∈ co, A' v i + ∑ i ∈ co, A' i v + A' v v := by
    unfold size
    rw [hls, hls]
  have hsn : size A' v (lst cn) = ∑ i ∈ cn, A' v i + ∑ i ∈ cn, A' i v + A' v v := by
    unfold size
    rw [hls, hls]
  have hpos : ∀ c : Finset Nat, (∀ w ∈ c, w < m) → 0 ≤ size A' v (lst c) := by
    intro c hc
    unfold size
    rw [hls, hls]
    have := Finset.sum_nonneg fun i hi => hA v hv i (hc i hi)
    have := Finset.sum_nonneg fun i hi => hA i (hc i hi) v hv
    linarith
  have hp1 := hpos co (hlt ci)
  have hp2 := hpos cn (hlt cf)
  have htot : size A' v (lst co) + size A' v (lst cn) ≤ 4 * M := by
    rw [hso, hsn]
    linarith
  have hpow : ∀ q' ≤ q + 4 * m + 5, ∀ z, z ≤ 4 * M → (1 + u) ^ q' * z ≤ B := by
    intro q' hq' z hz
    refine le_trans (mul_le_mul_of_nonneg_left hz (by positivity)) (le_trans ?_ hB)
    exact mul_le_mul_of_nonneg_right (pow_le_pow_right₀ (by linarith) hq') (by linarith)
  have len1 := length_le m co (lst co) (hnd co) (hmem co) (hlt ci)
  have len2 := length_le m cn (lst cn) (hnd cn) (hmem cn) (hlt cf)
  have len1' : ((lst co).length : K) ≤ m := by exact_mod_cast len1
  have len2' : ((lst cn).length : K) ≤ m := by exact_mod_cast len2
  have hlen : 1 ≤ (lst co).length := List.length_pos_of_mem ((hmem co v).2 hcv)
  have no := fDeltaOut_near hr hu L hv (lst co) (hnd co)
    (fun i hi => hlt ci i ((hmem co i).1 hi)) hlen (hpow _ (by omega) _ (by linarith))
    (by linarith) hout
  have nn := fDeltaTo_near hr hu L hv (lst cn) (hnd cn)
    (fun i hi => hlt cf i ((hmem cn i).1 hi)) (hpow _ (by omega) _ (by linarith))
    (by linarith) hin
  rw [hls co (fun i => t v i - w v i), hls co (fun i => t i v - w i v)] at no
  rw [hls cn (fun i => t v i - w v i), hls cn (fun i => t i v - w i v)] at nn
  have no' : Near u (q + 4 * (lst co).length + 4) rOut eo (size A' v (lst co)) := by
    rw [← heo]
    exact no
  have nn' : Near u (q + 4 * (lst cn).length + 4) rIn ei (size A' v (lst cn)) := by
    rw [← hei]
    exact nn
  have tot := Near.add hr.toRounds hu (no'.mono hu (by omega : _ ≤ q + 4 * m + 4))
    (nn'.mono hu (by omega : _ ≤ q + 4 * m + 4)) (hpow _ (by omega) _ htot)
  refine ⟨?_, ?_⟩
  · have e : stability x p + (eo + ei) - stability x p = eo + ei := by ring
    rw [e]
    refine le_trans tot.1 (mul_le_mul_of_nonneg_left htot ?_)
    have := one_le_pow' hu (q + 4 * m + 4 + 1)
    linarith
  · exact scan_nonneg hr A lst p v ci rOut _ ar.zero ci (by rw [hr.zero]) _ _ hscan

end Verif.SparseRound
