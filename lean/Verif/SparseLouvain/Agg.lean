import Verif.SparseLouvain.Lemmas
import Verif.SparseLouvain.Spec

/-!
# Aggregation of the sparse covariance against the dense one
-/

set_option linter.unusedSectionVars false
set_option linter.unusedSimpArgs false
set_option linter.dupNamespace false

namespace Verif.SparseLouvain

open Verif.Partition Verif.Autocov Verif.Csr
open Verif.Louvain (Sched Params getCluster potentialNewClusters listSet updatePart neighs Clu
  visit sweep scan moveLoop moveNodes metaLoop stability mem_listSet listSet_nodup aggS blockSum
  rowSum)

variable {K : Type} [Field K] [LinearOrder K] [IsStrictOrderedRing K]

theorem list_sum_pos (l : List K) (h : ∀ x ∈ l, 0 ≤ x) (y : K) (hy : y ∈ l) (hy0 : 0 < y) :
    0 < l.sum := by
  induction l with
  | nil => simp at hy
  | cons a l ih =>
    rw [List.sum_cons]
    have ha := h a (by simp)
    have hl := list_sum_nonneg l (fun x hx => h x (by simp [hx]))
    rcases List.mem_cons.1 hy with rfl | hy
    · linarith
    · have := ih (fun x hx => h x (by simp [hx])) hy
      linarith

theorem sumAt_pos_iff (r : List (Nat × K)) (h : ∀ e ∈ r, 0 < e.2) (j : Nat) :
    0 < sumAt r j ↔ ∃ e ∈ r, e.1 = j := by
  constructor
  · intro hp
    by_contra hc
    push Not at hc
    rw [sumAt_eq_zero r j hc] at hp
    exact lt_irrefl _ hp
  · rintro ⟨e, he, rfl⟩
    unfold sumAt
    apply list_sum_pos _ _ e.2
    · rw [List.mem_map]
      exact ⟨e, List.mem_filter.2 ⟨he, by simp⟩, rfl⟩
    · exact h e he
    · intro x hx
      rw [List.mem_map] at hx
      obtain ⟨f, hf, rfl⟩ := hx
      exact (h f (List.mem_filter.1 hf).1).le

theorem val_nonneg {A : Autocov K} (ht : Tight A) (i j : Nat) (hi : i < A.PT.nrows) :
    0 ≤ A.PT.val i j := by
  unfold Csr.val sumAt
  apply list_sum_nonneg
  intro x hx
  rw [List.mem_map] at hx
  obtain ⟨f, hf, rfl⟩ := hx
  exact (ht.rows i hi f (List.mem_filter.1 hf).1).le

theorem mem_sneighs {A : Autocov K} (hg : Good A) (ht : Tight A) (i j : Nat) (hi : i < A.PT.nrows) :
    j ∈ sneighs A i ↔ j < A.PT.nrows ∧ (0 < A.PT.val i j ∨ 0 < A.PT.val j i) := by
  unfold sneighs
  rw [List.mem_toFinset, List.mem_append, List.mem_map, List.mem_map]
  constructor
  · rintro (⟨e, he, rfl⟩ | ⟨e, he, rfl⟩)
    · refine ⟨hg.square ▸ hg.wf.row_lt i e he, Or.inl ?_⟩
      exact (sumAt_pos_iff _ (ht.rows i hi) _).2 ⟨e, he, rfl⟩
    · have hlt := (ht.cols i hi e he).2
      refine ⟨hlt, Or.inr ?_⟩
      rw [← hg.columns e.1 i hlt hi]
      exact (sumAt_pos_iff _ (fun f hf => (ht.cols i hi f hf).1) _).2 ⟨e, he, rfl⟩
  · rintro ⟨hj, hp | hp⟩
    · obtain ⟨e, he, h⟩ := (sumAt_pos_iff _ (ht.rows i hi) _).1 hp
      exact Or.inl ⟨e, he, h⟩
    · rw [← hg.columns j i hj hi] at hp
      obtain ⟨e, he, h⟩ := (sumAt_pos_iff _ (fun f hf => (ht.cols i hi f hf).1) _).1 hp
      exact Or.inr ⟨e, he, h⟩

/-- The constructor keeps a matrix of positive entries. -/
theorem tight_mk (PT : Csr K) (w : Weights K) (sym : Bool) (h : PT.WF) (hsq : PT.ncols = PT.nrows)
    (hpos : ∀ i < PT.nrows, ∀ e ∈ PT.row i, 0 < e.2) : Tight (mkAutocov PT w sym) := by
  have hrow : ∀ i < PT.nrows, ∀ e ∈ (sortIndices PT).row i, 0 < e.2 ∧ e.1 < PT.nrows := by
    intro i hi e he
    rw [row_sortIndices PT i hi, (perm_sortRow PT.ncols (PT.row i) (h.row_lt i)).mem_iff] at he
    exact ⟨hpos i hi e he, hsq ▸ h.row_lt i e he⟩
  constructor
  · intro i hi e he
    rw [nrows_mk] at hi
    exact (hrow i hi e he).1
  · intro i hi e he
    rw [nrows_mk] at hi ⊢
    cases sym with
    | true => exact hrow i hi e he
    | false =>
      have he' : e ∈ (sortIndices PT).transpose.row i := he
      unfold Csr.transpose at he'
      rw [row_ofRows_map _ _ _ _ (by rw [ncols_sortIndices, hsq]; exact hi), List.mem_flatMap] at he'
      obtain ⟨a, ha, he'⟩ := he'
      rw [List.mem_range, nrows_sortIndices] at ha
      rw [List.mem_map] at he'
      obtain ⟨f, hf, rfl⟩ := he'
      exact ⟨(hrow a ha f (List.mem_filter.1 hf).1).1, ha⟩

theorem rows_aggregatePT {M : Csr K} (hpos : ∀ i < M.nrows, ∀ e ∈ M.row i, 0 < e.2)
    (groups : List (List Nat)) :
    ∀ a < (aggregatePT M groups).nrows, ∀ e ∈ (aggregatePT M groups).row a, 0 < e.2 := by
  intro a ha e he
  rw [(shape_aggregatePT M groups).2.1] at ha
  unfold aggregatePT at he
  split at he
  · unfold aggregate1 at he
    rw [row_ofRows_map _ _ _ _ ha, List.mem_filterMap] at he
    obtain ⟨b, _, h⟩ := he
    split at h
    · rename_i hp
      cases h
      exact hp
    · cases h
  · unfold aggregate2 at he
    rw [row_ofRows_map _ _ _ _ ha] at he
    unfold canonRow at he
    rw [List.mem_filterMap] at he
    obtain ⟨b, _, h⟩ := he
    split at h
    · rename_i hany
      cases h
      simp only [Bool.and_eq_true, List.any_eq_true, beq_iff_eq] at hany
      obtain ⟨⟨f, hf, hfb⟩, _⟩ := hany
      apply (sumAt_pos_iff _ _ _).2 ⟨f, hf, hfb⟩
      intro g hg
      rw [List.mem_flatMap] at hg
      obtain ⟨i, hi, hg⟩ := hg
      rw [List.mem_map] at hg
      obtain ⟨q, hq, rfl⟩ := hg
      exact hpos i (List.mem_range.1 (List.mem_filter.1 hi).1) q hq
    · cases h

theorem getD_map_listSet (cl : List (Finset Nat)) (a : Nat) :
    (cl.map listSet).getD a [] = listSet (cl.getD a ∅) := by
  have h0 : ([] : List Nat) = listSet ∅ := by
    unfold listSet
    simp
  rw [List.getD_eq_getElem?_getD, List.getD_eq_getElem?_getD, List.getElem?_map]
  cases cl[a]? with
  | none => exact h0
  | some c => rfl

theorem pairSum_listSet (S : Nat → Nat → K) (cl : List (Finset Nat)) (a b : Nat) :
    pairSum S ((cl.map listSet).getD a []) ((cl.map listSet).getD b []) = aggS S cl a b := by
  rw [getD_map_listSet, getD_map_listSet]
  unfold pairSum aggS blockSum
  rw [sum_listSet]
  exact Finset.sum_congr rfl fun i _ => sum_listSet _ _

/-- The clusters of a valid partition, as lists, are a grouping of the nodes. -/
theorem isGrouping_clusters {n : Nat} {cl : List (Finset Nat)} (h : IsPartition n cl) :
    IsGrouping n (cl.map listSet) := by
  unfold IsGrouping
  rw [List.perm_ext_iff_of_nodup _ List.nodup_range]
  · intro v
    rw [List.mem_range, List.mem_flatten]
    constructor
    · rintro ⟨l, hl, hv⟩
      rw [List.mem_map] at hl
      obtain ⟨c, hc, rfl⟩ := hl
      obtain ⟨i, hi⟩ := List.mem_iff_getElem?.1 hc
      exact Verif.Louvain.at_lt_n h ⟨c, hi, (mem_listSet c v).1 hv⟩
    · intro hv
      obtain ⟨i, ⟨c, hc, hvc⟩, _⟩ := (h v).1 hv
      exact ⟨listSet c, List.mem_map.2 ⟨c, List.mem_of_getElem? hc, rfl⟩, (mem_listSet c v).2 hvc⟩
  · rw [List.nodup_flatten]
    constructor
    · intro l hl
      rw [List.mem_map] at hl
      obtain ⟨c, _, rfl⟩ := hl
      exact listSet_nodup c
    · rw [List.pairwise_map, List.pairwise_iff_getElem]
      intro i j hi hj hij v hv1 hv2
      rw [mem_listSet] at hv1 hv2
      have a1 : At cl i v := ⟨_, List.getElem?_eq_getElem hi, hv1⟩
      have a2 : At cl j v := ⟨_, List.getElem?_eq_getElem hj, hv2⟩
      have hvn := Verif.Louvain.at_lt_n h a1
      obtain ⟨k, _, hk⟩ := (h v).1 hvn
      have := hk i a1
      have := hk j a2
      omega

theorem aggS_pos_iff {n : Nat} (T : Nat → Nat → K) {cl : List (Finset Nat)} (h : IsPartition n cl)
    (hT : ∀ i < n, ∀ j < n, 0 ≤ T i j) (a b : Nat) :
    0 < aggS T cl a b ↔ ∃ i j, At cl a i ∧ At cl b j ∧ 0 < T i j := by
  have hlt : ∀ a i, i ∈ cl.getD a ∅ → i < n := fun a i hi =>
    Verif.Louvain.at_lt_n h (Verif.Louvain.at_iff_getD.2 hi)
  unfold aggS blockSum
  constructor
  · intro hp
    by_contra hc
    push Not at hc
    have : ∑ i ∈ cl.getD a ∅, ∑ j ∈ cl.getD b ∅, T i j ≤ 0 := by
      apply Finset.sum_nonpos
      intro i hi
      apply Finset.sum_nonpos
      intro j hj
      exact hc i j (Verif.Louvain.at_iff_getD.2 hi) (Verif.Louvain.at_iff_getD.2 hj)
    linarith
  · rintro ⟨i, j, hi, hj, hp⟩
    have hi' := Verif.Louvain.at_iff_getD.1 hi
    have hj' := Verif.Louvain.at_iff_getD.1 hj
    have hin : ∀ i ∈ cl.getD a ∅, 0 ≤ ∑ j ∈ cl.getD b ∅, T i j := fun i hi =>
      Finset.sum_nonneg fun j hj => hT i (hlt a i hi) j (hlt b j hj)
    apply Finset.sum_pos' hin ⟨i, hi', ?_⟩
    exact Finset.sum_pos' (fun j hj => hT i (hlt a i hi') j (hlt b j hj)) ⟨j, hj', hp⟩

theorem Fit.fit0 {A : Autocov K} (f : Fit A) : Fit0 A := ⟨f.good, f.sym, f.norm, f.tight, f.pos⟩

theorem row_pos0 {A : Autocov K} (f : Fit0 A) (i : Nat) (hi : i < A.PT.nrows)
    (hr : A.PT.row i ≠ []) : ∃ j < A.PT.nrows, 0 < A.PT.val i j := by
  obtain ⟨e, he⟩ := List.exists_mem_of_ne_nil _ hr
  exact ⟨e.1, f.good.square ▸ f.good.wf.row_lt i e he,
    (sumAt_pos_iff _ (f.tight.rows i hi) _).2 ⟨e, he, rfl⟩⟩

theorem row_pos {A : Autocov K} (f : Fit A) (i : Nat) (hi : i < A.PT.nrows) :
    ∃ j < A.PT.nrows, 0 < A.PT.val i j := row_pos0 f.fit0 i hi (f.nonempty i hi)

theorem Dense.dense0 {A : Autocov K} (f : Fit A) {S T : Nat → Nat → K} (s : Dense A S T) :
    Dense0 A S T := by
  refine ⟨s.cov, s.nonneg, ?_, fun i hi j hj _ => s.pattern i hi j hj⟩
  intro i hi
  obtain ⟨j, hj, hp⟩ := row_pos f i hi
  exact Finset.sum_pos' (fun j hj => s.nonneg i hi j (Finset.mem_range.1 hj))
    ⟨j, Finset.mem_range.2 hj, (s.pattern i hi j hj).2 hp⟩

theorem row_ne_of_val {M : Csr K} {i j : Nat} (h : 0 < M.val i j) : M.row i ≠ [] := by
  intro he
  unfold Csr.val at h
  rw [he] at h
  simp [sumAt] at h

/-- The diagonal is read correctly if every row stores an entry, or if only the isolated node 0
stores none. -/
theorem diag_ok {A : Autocov K} (hg : Good A) (ht : Tight A)
    (hr : (∀ i < A.PT.nrows, A.PT.row i ≠ []) ∨ Iso A) (i : Nat) (hi : i < A.PT.nrows) :
    readDiag A.PT i = .ok (A.PT.val i i) := by
  by_cases hne : A.PT.row i = []
  · rcases hr with hr | hr
    · exact absurd hne (hr i hi)
    · have h0 : i = 0 := by
        by_contra h
        exact hr.rows i hi h hne
      subst h0
      have hfl := hg.wf.flatten_rows
      have hip : A.PT.indptr.getD 0 0 = 0 := hg.wf.ptrZero
      rw [readDiag_empty hg.wf 0 hi hne, hip, List.drop_zero, ← hfl]
      have hv : A.PT.val 0 0 = 0 := by
        unfold Csr.val
        rw [hne]
        rfl
      rw [hv]
      match hL : A.PT.rows.flatten with
      | [] =>
        exfalso
        obtain ⟨e, he⟩ := List.exists_mem_of_ne_nil _ (hr.rows 1 hr.two (by omega))
        have : e ∈ A.PT.rows.flatten := by
          rw [List.mem_flatten]
          refine ⟨A.PT.row 1, ?_, he⟩
          unfold Csr.rows
          rw [List.mem_map]
          exact ⟨1, List.mem_range.2 hr.two, rfl⟩
        rw [hL] at this
        simp at this
      | e :: rest =>
        simp only [List.head?_cons]
        rw [if_neg]
        intro he
        have hmem : e ∈ A.PT.rows.flatten := by rw [hL]; simp
        rw [List.mem_flatten] at hmem
        obtain ⟨r, hrr, her⟩ := hmem
        unfold Csr.rows at hrr
        rw [List.mem_map] at hrr
        obtain ⟨k, hk, rfl⟩ := hrr
        rw [List.mem_range] at hk
        have hk0 : k ≠ 0 := by
          rintro rfl
          rw [hne] at her
          simp at her
        exact (hr.alone k hk hk0).2 ((sumAt_pos_iff _ (ht.rows k hk) _).2 ⟨e, her, he⟩)
  · exact readDiag_ok hg.wf hg.sorted hg.noRepeats i hi hne

theorem nb_of_pattern {A : Autocov K} (hg : Good A) (ht : Tight A) {T : Nat → Nat → K}
    (hp : ∀ i < A.PT.nrows, ∀ j < A.PT.nrows, i ≠ j → (0 < T i j ↔ 0 < A.PT.val i j)) (i : Nat)
    (hi : i < A.PT.nrows) : (sneighs A i).erase i = (neighs T A.PT.nrows i).erase i := by
  ext j
  rw [Finset.mem_erase, Finset.mem_erase, mem_sneighs hg ht i j hi]
  unfold neighs
  rw [Finset.mem_filter, Finset.mem_range]
  constructor
  · rintro ⟨hji, hj, h⟩
    exact ⟨hji, hj, h.imp (hp i hi j hj (Ne.symm hji)).2 (hp j hj i hi hji).2⟩
  · rintro ⟨hji, hj, h⟩
    exact ⟨hji, hj, h.imp (hp i hi j hj (Ne.symm hji)).1 (hp j hj i hi hji).1⟩

theorem rel_base {A : Autocov K} (f : Fit0 A)
    (hr : (∀ i < A.PT.nrows, A.PT.row i ≠ []) ∨ Iso A) {S T : Nat → Nat → K} (s : Dense0 A S T) :
    Rel A A.PT.nrows S T :=
  ⟨rfl, f.good, diag_ok f.good f.tight hr, s.cov, nb_of_pattern f.good f.tight s.pattern⟩

theorem rel_aggregate {A : Autocov K} (f : Fit0 A) (I : Prop)
    (hr : (∀ i < A.PT.nrows, A.PT.row i ≠ []) ∨ (I ∧ Iso A))
    {S T : Nat → Nat → K} (s : Dense0 A S T)
    {p : Part} (h : Consistent p) (hn : p.numNodes = A.PT.nrows)
    (hne : ∀ c ∈ p.clusters, c.Nonempty) (h0 : I → p.clusters[0]? = some {0}) :
    ∃ mc : Clu K, Verif.Louvain.aggregate T S p = .ok mc ∧
      Rel (A.aggregate (p.clusters.map listSet)) mc.n mc.S mc.T := by
  have hpart := h.1
  rw [hn] at hpart
  have hg := isGrouping_clusters hpart
  have hTrow : ∀ i < p.numNodes, 0 < rowSum p.numNodes T i := by
    rw [hn]
    exact s.rowpos
  obtain ⟨mc, hmc⟩ := Verif.Louvain.aggregate_total T S h hne hTrow
  refine ⟨mc, hmc, ?_⟩
  obtain ⟨e1, e2, _⟩ := Verif.Louvain.aggregate_ok T S hmc
  have eT : mc.T = fun s t => aggS T p.clusters s t
      / rowSum p.clusters.length (aggS T p.clusters) s := by
    unfold Verif.Louvain.aggregate Verif.Louvain.mkClu at hmc
    dsimp only at hmc
    split at hmc
    · simp at hmc
    · split at hmc
      · split at hmc
        · simp at hmc
        · injection hmc with hmc
          rw [← hmc]
      · simp at hmc
  have hvpos : ∀ a < (p.clusters.map listSet).length, ∀ b < (p.clusters.map listSet).length,
      0 ≤ pairSum A.PT.val ((p.clusters.map listSet).getD a []) ((p.clusters.map listSet).getD b []) := by
    intro a ha b hb
    apply pairSum_nonneg
    intro i hi j _
    exact val_nonneg f.tight i j (group_lt hg a i ha hi)
  obtain ⟨g1, g2, g3⟩ := good_aggregate A f.good f.sym hg hvpos
  obtain ⟨w1, w2, w3, w4⟩ := shape_aggregatePT A.PT (p.clusters.map listSet)
  have hlen : (p.clusters.map listSet).length = p.clusters.length := by simp
  have htight : Tight (A.aggregate (p.clusters.map listSet)) := by
    unfold Autocov.aggregate
    exact tight_mk _ _ _ w1 (by rw [w2, w3]) (rows_aggregatePT f.tight.rows _)
  have hval : ∀ a < p.clusters.length, ∀ b < p.clusters.length,
      (A.aggregate (p.clusters.map listSet)).PT.val a b = aggS A.PT.val p.clusters a b := by
    intro a ha b hb
    show (sortIndices (aggregatePT A.PT _)).val a b = _
    rw [val_sortIndices w1 _ _ (by rw [w2, hlen]; exact ha),
      val_aggregatePT f.good.wf rfl f.good.square hg hvpos a b (by rw [hlen]; exact ha)
        (by rw [hlen]; exact hb), pairSum_listSet]
  have hTpos : ∀ a < p.clusters.length, ∀ b < p.clusters.length, a ≠ b →
      (0 < mc.T a b ↔ 0 < (A.aggregate (p.clusters.map listSet)).PT.val a b) := by
    intro a ha b hb hab
    have hij : ∀ i j, At p.clusters a i → At p.clusters b j → i ≠ j := by
      rintro i j h1 h2 rfl
      exact hab (hpart.disj i a b h1 h2)
    rw [hval a ha b hb, aggS_pos_iff A.PT.val hpart (fun i hi j _ => val_nonneg f.tight i j hi), eT]
    dsimp only
    have hr : 0 < rowSum p.clusters.length (aggS T p.clusters) a := by
      rw [Verif.Louvain.rowSum_agg T h]
      apply Finset.sum_pos
      · intro i hi
        exact hTrow i (Verif.Louvain.at_lt_n h.1 (Verif.Louvain.at_iff_getD.2 hi))
      · apply hne
        rw [List.getD_eq_getElem?_getD]
        simp [ha]
    rw [div_pos_iff_of_pos_right hr, aggS_pos_iff T hpart s.nonneg]
    constructor
    · rintro ⟨i, j, hi, hj, hp⟩
      exact ⟨i, j, hi, hj, (s.pattern i (Verif.Louvain.at_lt_n hpart hi) j
        (Verif.Louvain.at_lt_n hpart hj) (hij i j hi hj)).1 hp⟩
    · rintro ⟨i, j, hi, hj, hp⟩
      exact ⟨i, j, hi, hj, (s.pattern i (Verif.Louvain.at_lt_n hpart hi) j
        (Verif.Louvain.at_lt_n hpart hj) (hij i j hi hj)).2 hp⟩
  rw [hlen] at g3
  have hrowne : ∀ a < p.clusters.length, ∀ i, At p.clusters a i → A.PT.row i ≠ [] →
      (A.aggregate (p.clusters.map listSet)).PT.row a ≠ [] := by
    intro a ha i hia hri
    obtain ⟨j, hj, hp⟩ := row_pos0 f i (Verif.Louvain.at_lt_n hpart hia) hri
    obtain ⟨b, hjb, _⟩ := (hpart j).1 hj
    have hb := at_lt hjb
    apply row_ne_of_val (j := b)
    rw [hval a ha b hb]
    exact (aggS_pos_iff A.PT.val hpart (fun i hi j _ => val_nonneg f.tight i j hi) a b).2
      ⟨i, j, hia, hjb, hp⟩
  have hmemc : ∀ a < p.clusters.length, ∃ i, At p.clusters a i := by
    intro a ha
    obtain ⟨i, hi⟩ := hne _ (List.getElem_mem ha)
    exact ⟨i, _, List.getElem?_eq_getElem ha, hi⟩
  have hr' : (∀ i < (A.aggregate (p.clusters.map listSet)).PT.nrows,
      (A.aggregate (p.clusters.map listSet)).PT.row i ≠ []) ∨
        Iso (A.aggregate (p.clusters.map listSet)) := by
    rcases hr with hr | ⟨hI, hr⟩
    · refine Or.inl fun a ha => ?_
      rw [g3] at ha
      obtain ⟨i, hi⟩ := hmemc a ha
      exact hrowne a ha i hi (hr i (Verif.Louvain.at_lt_n hpart hi))
    · have hc0 := h0 hI
      have h00 : At p.clusters 0 0 := ⟨_, hc0, by simp⟩
      have honly : ∀ i, At p.clusters 0 i → i = 0 := by
        rintro i ⟨c, hc, hi⟩
        rw [hc0] at hc
        injection hc with hc
        subst hc
        simpa using hi
      have hnz : ∀ a i, At p.clusters a i → a ≠ 0 → i ≠ 0 := by
        rintro a i hi ha rfl
        exact ha (hpart.disj 0 a 0 hi h00)
      refine Or.inr ⟨?_, ?_, ?_⟩
      · rw [g3]
        obtain ⟨b, hb, _⟩ := (hpart 1).1 hr.two
        have h1 := at_lt hb
        have h2 : b ≠ 0 := by
          rintro rfl
          exact absurd (honly 1 hb) (by omega)
        omega
      · intro a ha ha0
        rw [g3] at ha
        obtain ⟨i, hi⟩ := hmemc a ha
        exact hrowne a ha i hi (hr.rows i (Verif.Louvain.at_lt_n hpart hi) (hnz a i hi ha0))
      · intro b hb hb0
        rw [g3] at hb
        have hl0 := at_lt h00
        rw [hval 0 hl0 b hb, hval b hb 0 hl0,
          aggS_pos_iff A.PT.val hpart (fun i hi j _ => val_nonneg f.tight i j hi),
          aggS_pos_iff A.PT.val hpart (fun i hi j _ => val_nonneg f.tight i j hi)]
        constructor
        · rintro ⟨i, j, hi, hj, hp⟩
          rw [honly i hi] at hp
          exact (hr.alone j (Verif.Louvain.at_lt_n hpart hj) (hnz b j hj hb0)).1 hp
        · rintro ⟨i, j, hi, hj, hp⟩
          rw [honly j hj] at hp
          exact (hr.alone i (Verif.Louvain.at_lt_n hpart hi) (hnz b i hi hb0)).2 hp
  refine ⟨g3.trans e2.symm, g1, ?_, ?_, ?_⟩
  · intro a ha
    rw [e2] at ha
    exact diag_ok g1 htight hr' a (by rw [g3]; exact ha)
  · intro a ha b hb
    rw [e2] at ha hb
    rw [toarray_aggregate A f.good hg f.pos f.norm hvpos a b (by rw [hlen]; exact ha)
      (by rw [hlen]; exact hb), pairSum_listSet, e1]
    exact Finset.sum_congr rfl fun i hi => Finset.sum_congr rfl fun j hj =>
      s.cov i (Verif.Louvain.at_lt_n hpart (Verif.Louvain.at_iff_getD.2 hi)) j
        (Verif.Louvain.at_lt_n hpart (Verif.Louvain.at_iff_getD.2 hj))
  · intro a ha
    rw [e2] at ha ⊢
    have := nb_of_pattern g1 htight (T := mc.T) (by rw [g3]; exact hTpos) a (by rw [g3]; exact ha)
    rw [g3] at this
    exact this

end Verif.SparseLouvain
