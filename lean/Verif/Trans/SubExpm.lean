import Verif.Trans.SubModel
import Verif.Trans.Expm

/-!
# Exponentials computed on parts of the network: property C60
-/

set_option linter.dupNamespace false
set_option linter.unusedSectionVars false
set_option linter.unusedSimpArgs false

namespace Verif.Trans

open Verif.TempNet Finset NormedSpace

open scoped Nat

/-! ## Powers and exponentials on a closed set of indices -/

section
variable {ι κ : Type} [Fintype ι] [DecidableEq ι] [Fintype κ] [DecidableEq κ]

theorem pow_closed {A : Matrix ι ι ℝ} {f : κ → ι} (hf : Function.Injective f)
    (hc : ∀ a j, j ∉ Set.range f → A (f a) j = 0) (k : ℕ) :
    (∀ a b, (A ^ k) (f a) (f b) = ((A.submatrix f f) ^ k) a b) ∧
    ∀ a j, j ∉ Set.range f → (A ^ k) (f a) j = 0 := by
  have hsum : ∀ (a : κ) (g : ι → ℝ), ∑ l, A (f a) l * g l = ∑ c, A (f a) (f c) * g (f c) := by
    intro a g
    rw [← Finset.sum_image (s := Finset.univ) (g := f) (f := fun l => A (f a) l * g l)
      (fun x _ y _ h => hf h)]
    symm
    apply Finset.sum_subset (Finset.subset_univ _)
    intro l _ hl
    rw [hc a l, zero_mul]
    rintro ⟨c, rfl⟩
    exact hl (Finset.mem_image_of_mem _ (Finset.mem_univ c))
  induction k with
  | zero =>
    refine ⟨fun a b => ?_, fun a j hj => ?_⟩
    · simp only [pow_zero, Matrix.one_apply, hf.eq_iff]
    · rw [pow_zero, Matrix.one_apply, if_neg]
      rintro rfl
      exact hj ⟨a, rfl⟩
  | succ k ih =>
    refine ⟨fun a b => ?_, fun a j hj => ?_⟩
    · rw [pow_succ', pow_succ', Matrix.mul_apply, Matrix.mul_apply, hsum]
      refine Finset.sum_congr rfl fun c _ => ?_
      rw [ih.1 c b, Matrix.submatrix_apply]
    · rw [pow_succ', Matrix.mul_apply, hsum]
      refine Finset.sum_eq_zero fun c _ => ?_
      rw [ih.2 c j hj, mul_zero]

theorem exp_closed {A : Matrix ι ι ℝ} {f : κ → ι} (hf : Function.Injective f)
    (hc : ∀ a j, j ∉ Set.range f → A (f a) j = 0) :
    (∀ a b, exp A (f a) (f b) = exp (A.submatrix f f) a b) ∧
    ∀ a j, j ∉ Set.range f → exp A (f a) j = 0 := by
  refine ⟨fun a b => ?_, fun a j hj => ?_⟩
  · have h1 := hasSum_exp_apply A (f a) (f b)
    have h2 := hasSum_exp_apply (A.submatrix f f) a b
    simp only [(pow_closed hf hc _).1] at h1
    exact h1.unique h2
  · have h1 := hasSum_exp_apply A (f a) j
    simp only [(pow_closed hf hc _).2 a j hj, mul_zero] at h1
    exact h1.unique hasSum_zero

end

/-- The exponential on a closed list of indices is that of the small matrix. -/
theorem expm_sub {n : Nat} {A : Mat ℝ} {idx : List Nat} (hn : idx.Nodup) (hr : ∀ i ∈ idx, i < n)
    (hc : ∀ i ∈ idx, ∀ j < n, j ∉ idx → A i j = 0) :
    (∀ i ∈ idx, ∀ j ∈ idx, expm n A i j = expm idx.length (sub idx A) (idx.idxOf i) (idx.idxOf j)) ∧
    ∀ i ∈ idx, ∀ j < n, j ∉ idx → expm n A i j = 0 := by
  let f : Fin idx.length → Fin n := fun a => ⟨idx[a], hr _ (List.getElem_mem _)⟩
  have hf : Function.Injective f := by
    intro a b hab
    have : idx[a] = idx[b] := Fin.mk.inj_iff.1 hab
    exact Fin.ext ((List.Nodup.getElem_inj_iff hn).1 this)
  have hrange : ∀ j : Fin n, j ∈ Set.range f ↔ (j : Nat) ∈ idx := by
    intro j
    constructor
    · rintro ⟨a, rfl⟩; exact List.getElem_mem _
    · intro h
      obtain ⟨a, ha, e⟩ := List.getElem_of_mem h
      exact ⟨⟨a, ha⟩, Fin.ext e⟩
  have key := exp_closed (A := Matrix.of fun a b : Fin n => A a b) hf (by
    intro a j hj
    rw [hrange] at hj
    exact hc _ (List.getElem_mem _) j j.2 hj)
  have hsubm : (Matrix.of fun a b : Fin n => A a b).submatrix f f =
      Matrix.of fun a b : Fin idx.length => sub idx A a b := by
    ext a b
    show A idx[a] idx[b] = A (idx.getD a 0) (idx.getD b 0)
    rw [getD_getElem _ _ a.2, getD_getElem _ _ b.2]
    rfl
  constructor
  · intro i hi j hj
    have hi' := List.idxOf_lt_length_iff.2 hi
    have hj' := List.idxOf_lt_length_iff.2 hj
    have h := key.1 ⟨_, hi'⟩ ⟨_, hj'⟩
    rw [hsubm] at h
    have fi : f ⟨_, hi'⟩ = ⟨i, hr i hi⟩ := Fin.ext (List.getElem_idxOf hi')
    have fj : f ⟨_, hj'⟩ = ⟨j, hr j hj⟩ := Fin.ext (List.getElem_idxOf hj')
    rw [fi, fj] at h
    unfold expm
    rw [dif_pos ⟨hr i hi, hr j hj⟩, dif_pos ⟨hi', hj'⟩]
    exact h
  · intro i hi j hj hnj
    have hi' := List.idxOf_lt_length_iff.2 hi
    have fi : f ⟨_, hi'⟩ = ⟨i, hr i hi⟩ := Fin.ext (List.getElem_idxOf hi')
    have h := key.2 ⟨_, hi'⟩ ⟨j, hj⟩ (by rw [hrange]; exact hnj)
    rw [fi] at h
    unfold expm
    rw [dif_pos ⟨hr i hi, hj⟩]
    exact h

theorem mem_compIndices {n : Nat} {lab : Nat → Nat} {c i : Nat} :
    i ∈ compIndices n lab c ↔ i < n ∧ lab i = c := by
  simp [compIndices]

theorem rebuild_expm {n : Nat} {lab : Nat → Nat} {A : Mat ℝ}
    (hl : ∀ i < n, ∀ j < n, A i j ≠ 0 → lab i = lab j) :
    EqOn n (rebuild n lab fun c => expm (compIndices n lab c).length (sub (compIndices n lab c) A))
      (expm n A) := by
  intro i hi j hj
  have hsub := expm_sub (n := n) (A := A) (idx := compIndices n lab (lab i))
    (List.nodup_range.filter _) (fun k hk => (mem_compIndices.1 hk).1) (by
      intro k hk j' hj' hnj
      by_contra hc
      obtain ⟨hk1, hk2⟩ := mem_compIndices.1 hk
      exact hnj (mem_compIndices.2 ⟨hj', (hl k hk1 j' hj' hc).symm.trans hk2⟩))
  unfold rebuild
  split
  · rename_i h
    rw [hsub.1 i (mem_compIndices.2 ⟨hi, rfl⟩) j (mem_compIndices.2 ⟨hj, h.symm⟩)]
  · rename_i h
    rw [hsub.2 i (mem_compIndices.2 ⟨hi, rfl⟩) j hj fun hc => h (mem_compIndices.1 hc).2.symm]

theorem normalizeIf_stoch {n : Nat} {A B : Mat ℝ} (h : EqOn n A B) (hB : Stoch n B) (b : Bool) :
    EqOn n (normalizeIf n b A) B := by
  unfold normalizeIf
  split
  · exact (rowNormalize_stoch (stoch_congr h hB)).trans h
  · exact h

/-- `EMul` computes products with the exponential. -/
def MulSpec (EMul : Nat → Mat ℝ → (Nat → ℝ) → Nat → ℝ) : Prop :=
  ∀ n A v, ∀ i < n, EMul n A v i = ∑ k ∈ range n, expm n A i k * v k

/-- **C60**: computing one column at a time gives the exponential, without normalisation for
every matrix. -/
theorem C60_by_columns {EMul : Nat → Mat ℝ → (Nat → ℝ) → Nat → ℝ} (hE : MulSpec EMul) (n : Nat) (A : Mat ℝ) :
    EqOn n (parallelExpm n EMul none false A) (expm n A) := by
  intro i hi j hj
  show EMul n A (fun k => if k = j then 1 else 0) i = _
  rw [hE n A _ i hi]
  simp [hj]

/-- **C60**: the exponential computed separately on each component is the exponential of the
whole matrix, for every matrix without entries between components; in particular it does not
depend on which components are computed together. -/
theorem C60_by_components {n : Nat} {lab : Nat → Nat} {A : Mat ℝ}
    (hl : ∀ i < n, ∀ j < n, A i j ≠ 0 → lab i = lab j) :
    EqOn n (subspaceExpm n expm lab none false A) (expm n A) ∧
    ∀ {EMul : Nat → Mat ℝ → (Nat → ℝ) → Nat → ℝ}, MulSpec EMul →
      EqOn n (subspaceExpmParallel n expm EMul lab none false A) (expm n A) := by
  refine ⟨rebuild_expm hl, fun hE => ?_⟩
  refine EqOn.trans ?_ (rebuild_expm hl)
  intro i hi j hj
  simp only [subspaceExpmParallel, normalizeIf, trim, Bool.false_eq_true, if_false]
  unfold rebuild
  split
  · rename_i h
    dsimp only
    split
    · apply C60_by_columns hE
      · exact List.idxOf_lt_length_iff.2 (mem_compIndices.2 ⟨hi, rfl⟩)
      · exact List.idxOf_lt_length_iff.2 (mem_compIndices.2 ⟨hj, h.symm⟩)
    · rfl
  · rfl

theorem kept_mem {n : Nat} {stored : Nat → Nat → Bool} {i : Nat} :
    i ∈ keptIndices n stored ↔ i < n ∧ ∃ j < n, stored i j = true ∨ stored j i = true := by
  simp [keptIndices]

theorem sub_row_sum {n : Nat} {L : Mat ℝ} {idx : List Nat} (hn : idx.Nodup) (hr : ∀ i ∈ idx, i < n)
    (hc : ∀ i ∈ idx, ∀ j < n, j ∉ idx → L i j = 0) (hsum : ∀ i < n, ∑ j ∈ range n, L i j = 0) :
    ∀ a < idx.length, ∑ b ∈ range idx.length, sub idx L a b = 0 := by
  intro a ha
  have hmem : idx.getD a 0 ∈ idx := by rw [getD_getElem _ _ ha]; exact List.getElem_mem _
  rw [← hsum _ (hr _ hmem)]
  have h1 : ∑ j ∈ range n, L (idx.getD a 0) j = ∑ j ∈ idx.toFinset, L (idx.getD a 0) j := by
    symm
    apply Finset.sum_subset
    · intro j hj
      exact mem_range.2 (hr j (List.mem_toFinset.1 hj))
    · intro j hj hnj
      exact hc _ hmem j (mem_range.1 hj) fun h => hnj (List.mem_toFinset.2 h)
  rw [h1, List.sum_toFinset _ hn]
  unfold sub
  rw [Finset.sum_range, ← List.sum_ofFn]
  congr 1
  apply List.ext_getElem
  · simp
  · intro i h1 h2
    simp only [List.getElem_ofFn, List.getElem_map]
    have h3 : i < idx.length := by simpa using h2
    have h4 : idx.getD i 0 = idx[i] := getD_getElem idx 0 h3
    simp only [h4]

/-- **C60**.  Whatever the options (dense or sparse, by components or as a whole, one process
or several, with or without normalisation) the result is the exponential of minus the factor
times the Laplacian. -/
theorem C60_all_options {n : Nat} {EMul : Nat → Mat ℝ → (Nat → ℝ) → Nat → ℝ} (hE : MulSpec EMul)
    {stored : Nat → Nat → Bool} {L : Mat ℝ} (hst : ∀ i < n, ∀ j < n, L i j ≠ 0 → stored i j = true)
    (hsum : ∀ i < n, ∑ j ∈ range n, L i j = 0) (hoff : ∀ i < n, ∀ j < n, i ≠ j → L i j ≤ 0) {fact : ℝ} (hf : 0 ≤ fact)
    {nComp : Nat} {lab : Nat → Nat}
    (hlab : ∀ a < (keptIndices n stored).length, ∀ b < (keptIndices n stored).length,
      sub (keptIndices n stored) L a b ≠ 0 → lab a = lab b)
    (o : ExpmOpts ℝ) (ho : o.thresh = none) :
    EqOn n (sparseLaplExpm n expm EMul stored nComp lab o L fact) (expm n fun i j => -fact * L i j) := by
  unfold sparseLaplExpm
  split
  · rename_i h
    simp only [List.all_eq_true, List.mem_range, Bool.not_eq_true'] at h
    refine (expm_zero fun i hi j hj => ?_).symm
    show -fact * L i j = 0
    have : L i j = 0 := by
      by_contra hc
      have := hst i hi j hj hc
      rw [h i hi j hj] at this
      cases this
    rw [this, mul_zero]
  · dsimp only
    set idx := keptIndices n stored with hidx
    have hn : idx.Nodup := List.nodup_range.filter _
    have hr : ∀ i ∈ idx, i < n := fun i hi => (kept_mem.1 hi).1
    have hz : ∀ i < n, ∀ j < n, i ∉ idx ∨ j ∉ idx → L i j = 0 := by
      intro i hi j hj h
      by_contra hc
      have hs := hst i hi j hj hc
      rcases h with h | h
      · exact h (kept_mem.2 ⟨hi, j, hj, .inl hs⟩)
      · exact h (kept_mem.2 ⟨hj, i, hi, .inr hs⟩)
    have hcl : ∀ i ∈ idx, ∀ j < n, j ∉ idx → L i j = 0 := fun i hi j hj h => hz i (hr i hi) j hj (.inr h)
    set A : Mat ℝ := fun i j => -fact * sub idx L i j with hA
    have hAst : Stoch idx.length (expm idx.length A) := by
      apply expm_stoch (sub_row_sum hn hr hcl hsum) _ hf
      intro a ha b hb hab
      have e1 : idx.getD a 0 = idx[a] := getD_getElem _ _ ha
      have e2 : idx.getD b 0 = idx[b] := getD_getElem _ _ hb
      unfold sub
      rw [e1, e2]
      apply hoff _ (hr _ (List.getElem_mem _)) _ (hr _ (List.getElem_mem _))
      intro hc
      exact hab ((List.Nodup.getElem_inj_iff hn).1 hc)
    have hinner : ∀ T, EqOn idx.length T (expm idx.length A) →
        EqOn n (expand idx T) (expm n fun i j => -fact * L i j) := by
      intro T hT i hi j hj
      have hsub := expm_sub (n := n) (A := fun i j => -fact * L i j) hn hr (by
        intro i hi j hj h
        show -fact * L i j = 0
        rw [hcl i hi j hj h, mul_zero])
      unfold expand
      by_cases h1 : i ∈ idx
      · by_cases h2 : j ∈ idx
        · rw [if_pos ⟨h1, h2⟩, hsub.1 i h1 j h2,
            hT _ (List.idxOf_lt_length_iff.2 h1) _ (List.idxOf_lt_length_iff.2 h2)]
          rfl
        · rw [if_neg (fun h => h2 h.2), hsub.2 i h1 j hj h2, if_neg]
          rintro rfl
          exact h2 h1
      · rw [if_neg (fun h => h1 h.1)]
        have hs1 := expm_sub (n := n) (A := fun i j => -fact * L i j) (idx := [i]) (by simp)
          (by simpa using hi) (by
            intro k hk j hj _
            simp only [List.mem_singleton] at hk
            subst hk
            show -fact * L k j = 0
            rw [hz k hi j hj (.inl h1), mul_zero])
        by_cases h2 : i = j
        · subst h2
          rw [if_pos rfl, hs1.1 i (by simp) i (by simp)]
          have : EqOn [i].length (expm [i].length (sub [i] fun i j => -fact * L i j)) eye := by
            apply expm_zero
            intro a ha b hb
            simp only [List.length_singleton, Nat.lt_one_iff] at ha hb
            subst ha; subst hb
            show -fact * L i i = 0
            rw [hz i hi i hi (.inl h1), mul_zero]
          have hh := this 0 (by simp) 0 (by simp)
          simp only [List.idxOf_cons_self]
          rw [hh]
          rfl
        · rw [if_neg h2, hs1.2 i (by simp) j hj (by simpa using fun h => h2 h.symm)]
    apply hinner
    have hlabA : ∀ i < idx.length, ∀ j < idx.length, A i j ≠ 0 → lab i = lab j := by
      intro a ha b hb h
      apply hlab a ha b hb
      intro hc
      apply h
      show -fact * sub idx L a b = 0
      rw [hc, mul_zero]
    have hcomp := C60_by_components hlabA
    split
    · exact EqOn.refl _ _
    · split
      · split
        · unfold subspaceExpm
          rw [ho]
          exact normalizeIf_stoch hcomp.1 hAst _
        · unfold subspaceExpmParallel
          rw [ho]
          exact normalizeIf_stoch (hcomp.2 hE) hAst _
      · exact EqOn.refl _ _

theorem maxEntry_le {n : Nat} {A : Mat ℝ} {c : ℝ} (h0 : A 0 0 ≤ c) (h : ∀ i < n, ∀ j < n, A i j ≤ c) :
    maxEntry n A ≤ c := by
  unfold maxEntry
  have : ∀ (l : List Nat) (m : ℝ), m ≤ c → (∀ i ∈ l, i < n) →
      l.foldl (fun m i => (List.range n).foldl (fun m j => max m (A i j)) m) m ≤ c := by
    intro l
    induction l with
    | nil => intro m h _; exact h
    | cons a l ih =>
      intro m h1 h2
      refine ih _ ?_ fun i hi => h2 i (by simp [hi])
      exact foldl_max_le (fun j => A a j) c _ _ h1 fun j hj => h a (h2 a (by simp)) j (List.mem_range.1 hj)
  exact this _ _ h0 fun i hi => List.mem_range.1 hi

/-- A stochastic matrix trimmed with a ratio larger than its size and normalised is
stochastic, entries that were zero stay zero. -/
theorem trim_stoch {n : Nat} {A : Mat ℝ} (h : Stoch n A) {r : ℝ} (hr : (n : ℝ) < r) :
    Stoch n (normalizeIf n true (trim n (some r) A)) ∧
    ∀ i < n, ∀ j < n, A i j = 0 → normalizeIf n true (trim n (some r) A) i j = 0 := by
  have hz : ∀ i < n, ∀ j < n, A i j = 0 → normalizeIf n true (trim n (some r) A) i j = 0 := by
    intro i hi j hj h0
    have ht : trim n (some r) A i j = 0 := by
      show (if A i j < maxEntry n A / r then 0 else A i j) = 0
      rw [h0]; simp
    simp only [normalizeIf, if_true, rowNormalize, ht, zero_div, ite_self]
  refine ⟨?_, hz⟩
  rcases Nat.eq_zero_or_pos n with rfl | hpos
  · intro i hi; omega
  have hn : (0 : ℝ) < n := by exact_mod_cast hpos
  have hr0 : 0 < r := hn.trans hr
  have hmax : maxEntry n A ≤ 1 :=
    maxEntry_le (stoch_le_one h hpos hpos) fun i hi j hj => stoch_le_one h hi hj
  have hthr : maxEntry n A / r ≤ 1 / r := div_le_div_of_nonneg_right hmax hr0.le
  have hnn : ∀ i < n, ∀ j < n, 0 ≤ trim n (some r) A i j := by
    intro i hi j hj
    show 0 ≤ if A i j < maxEntry n A / r then 0 else A i j
    split
    · exact le_rfl
    · exact (h i hi).1 j hj
  intro i hi
  have hsum : 0 < ∑ k ∈ range n, trim n (some r) A i k := by
    obtain ⟨j, hj, hl⟩ := stoch_large h hi
    have hge : 1 / r < A i j := by
      rw [div_lt_iff₀ hr0]
      have hA : 0 < A i j := by
        by_contra hc
        have := mul_nonpos_of_nonneg_of_nonpos hn.le (not_lt.1 hc)
        linarith
      calc (1 : ℝ) ≤ n * A i j := hl
        _ < r * A i j := mul_lt_mul_of_pos_right hr hA
        _ = A i j * r := mul_comm _ _
    have hval : trim n (some r) A i j = A i j := by
      show (if A i j < maxEntry n A / r then 0 else A i j) = A i j
      rw [if_neg]
      intro hc
      linarith
    have hle : trim n (some r) A i j ≤ ∑ k ∈ range n, trim n (some r) A i k :=
      Finset.single_le_sum (f := fun k => trim n (some r) A i k)
        (fun k hk => hnn i hi k (mem_range.1 hk)) (mem_range.2 hj)
    rw [hval] at hle
    have : 0 < 1 / r := by positivity
    linarith
  have hform : ∀ j, normalizeIf n true (trim n (some r) A) i j =
      trim n (some r) A i j / ∑ k ∈ range n, trim n (some r) A i k := by
    intro j
    simp only [normalizeIf, if_true, rowNormalize]
    rw [if_neg hsum.ne']
  refine ⟨fun j hj => ?_, ?_⟩
  · rw [hform]; exact div_nonneg (hnn i hi j hj) hsum.le
  · simp only [hform]
    rw [← Finset.sum_div]
    exact div_self hsum.ne'

/-- **C60** with trimming: for a trimming ratio larger than the number of nodes and with
normalisation, the component-wise exponential of minus a Laplacian is stochastic and has no
entry between components. -/
theorem C60_trimmed {n : Nat} {lab : Nat → Nat} {L : Mat ℝ} {fact : ℝ} (hf : 0 ≤ fact)
    (hsum : ∀ i < n, ∑ j ∈ range n, L i j = 0) (hoff : ∀ i < n, ∀ j < n, i ≠ j → L i j ≤ 0)
    (hl : ∀ i < n, ∀ j < n, L i j ≠ 0 → lab i = lab j) {r : ℝ} (hr : (n : ℝ) < r) :
    Stoch n (subspaceExpm n expm lab (some r) true fun i j => -fact * L i j) ∧
    ∀ i < n, ∀ j < n, lab i ≠ lab j →
      subspaceExpm n expm lab (some r) true (fun i j => -fact * L i j) i j = 0 := by
  have hl' : ∀ i < n, ∀ j < n, (fun i j => -fact * L i j : Mat ℝ) i j ≠ 0 → lab i = lab j := by
    intro i hi j hj h
    apply hl i hi j hj
    intro hc
    apply h
    show -fact * L i j = 0
    rw [hc, mul_zero]
  have hst := stoch_congr (rebuild_expm hl') (expm_stoch hsum hoff hf)
  have := trim_stoch hst hr
  refine ⟨this.1, fun i hi j hj hne => this.2 i hi j hj ?_⟩
  unfold rebuild
  rw [if_neg hne]

/-- Four nodes: a contact between 1 and 3, nothing else. -/
noncomputable def exL : Mat ℝ := fun i j =>
  if i = 1 ∧ j = 1 ∨ i = 3 ∧ j = 3 then 1 else if i = 1 ∧ j = 3 ∨ i = 3 ∧ j = 1 then -1 else 0

/-- Product with the exponential, from its definition. -/
noncomputable def exMul : Nat → Mat ℝ → (Nat → ℝ) → Nat → ℝ := fun n A v i =>
  ∑ k ∈ range n, expm n A i k * v k

example : MulSpec exMul ∧
    (∀ i < 4, ∀ j < 4, exL i j ≠ 0 → decide (i % 2 = 1 ∧ j % 2 = 1) = true) ∧
    (∀ i < 4, ∑ j ∈ range 4, exL i j = 0) ∧ (∀ i < 4, ∀ j < 4, i ≠ j → exL i j ≤ 0) ∧
    (∀ i < 4, ∀ j < 4, exL i j ≠ 0 → (fun i => i % 2) i = (fun i => i % 2) j) ∧
    keptIndices 4 (fun i j => decide (i % 2 = 1 ∧ j % 2 = 1)) = [1, 3] := by
  refine ⟨fun n A v i _ => rfl, ?_, ?_, ?_, ?_, by decide⟩
  · intro i hi j hj
    interval_cases i <;> interval_cases j <;> simp [exL]
  · intro i hi
    interval_cases i <;> simp [exL, Finset.sum_range_succ]
  · intro i hi j hj
    interval_cases i <;> interval_cases j <;> simp [exL]
  · intro i hi j hj
    interval_cases i <;> interval_cases j <;> simp [exL]

end Verif.Trans
