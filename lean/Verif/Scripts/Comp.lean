import Verif.Scripts.CompOne

/-!
# C70: clustering the connected components one by one
-/

set_option linter.unusedSectionVars false

namespace Verif.Comps

open Verif.Partition Verif.Autocov Verif.SparseLouvain Verif.Csr
open Verif.Louvain (Sched Params listSet mem_listSet listSet_nodup blockSum exSched exPar)

variable {K : Type} [Field K] [LinearOrder K] [IsStrictOrderedRing K]

/-! ## The splitting -/

/-- The labels of components that are not single nodes. -/
def bigLabels (n : Nat) (label : Nat → Nat) : List Nat :=
  (uniqueLabels n label).filter fun c => decide ((compNodes n label c).length ≠ 1)

/-- The node of a component of one node that is kept. -/
def keptSingle (initP1 : Bool) (A : Autocov K) (label : Nat → Nat) (c : Nat) : Option Nat :=
  match compNodes A.PT.nrows label c with
  | [v] => if initP1 = true ∧ ¬ 0 < p1At A v then none else some v
  | _ => none

theorem split_eq (initP1 : Bool) (A : Autocov K) (label : Nat → Nat) :
    (split initP1 A label).parts = (bigLabels A.PT.nrows label).map (fun c =>
        (A.aggregate (idxList A.PT.nrows label c), compNodes A.PT.nrows label c)) ∧
      (split initP1 A label).singles =
        (uniqueLabels A.PT.nrows label).filterMap (keptSingle initP1 A label) := by
  unfold split bigLabels
  have key : ∀ (l : List Nat) (s : Split K),
      (l.foldl (splitStep initP1 A label) s).parts = s.parts ++
        (l.filter fun c => decide ((compNodes A.PT.nrows label c).length ≠ 1)).map (fun c =>
          (A.aggregate (idxList A.PT.nrows label c), compNodes A.PT.nrows label c)) ∧
      (l.foldl (splitStep initP1 A label) s).singles =
        s.singles ++ l.filterMap (keptSingle initP1 A label) := by
    intro l
    induction l with
    | nil => intro s; simp
    | cons c l ih =>
      intro s
      rw [List.foldl_cons, List.filter_cons, List.filterMap_cons]
      obtain ⟨h1, h2⟩ := ih (splitStep initP1 A label s c)
      rw [h1, h2]
      unfold splitStep keptSingle
      match hn : compNodes A.PT.nrows label c with
      | [v] =>
        simp only [List.length_cons, List.length_nil, Nat.zero_add, ne_eq, not_true_eq_false,
          decide_false, Bool.false_eq_true, if_false]
        split <;> simp
      | [] => simp [hn]
      | a :: b :: r => simp [hn]
  obtain ⟨h1, h2⟩ := key (uniqueLabels A.PT.nrows label) ⟨[], []⟩
  exact ⟨by rw [h1]; rfl, by rw [h2]; rfl⟩

theorem mem_uniqueLabels {A : Autocov K} {label : Nat → Nat} (hc : Comps A label) (c : Nat) :
    c ∈ uniqueLabels A.PT.nrows label ↔ ∃ v < A.PT.nrows, label v = c := by
  unfold uniqueLabels
  rw [List.mem_filter, List.mem_range]
  simp only [List.any_eq_true, List.mem_range, beq_iff_eq]
  constructor
  · exact fun h => h.2
  · rintro ⟨v, hv, rfl⟩
    exact ⟨hc.lt v hv, v, hv, rfl⟩

theorem big_length {A : Autocov K} {label : Nat → Nat} (hc : Comps A label) (c : Nat)
    (h : c ∈ bigLabels A.PT.nrows label) : 1 < (compNodes A.PT.nrows label c).length := by
  unfold bigLabels at h
  rw [List.mem_filter, mem_uniqueLabels hc] at h
  obtain ⟨⟨v, hv, hl⟩, h2⟩ := h
  have h3 := List.length_pos_of_mem (mem_compNodes.2 ⟨hv, hl⟩)
  have h4 : (compNodes A.PT.nrows label c).length ≠ 1 := by simpa using h2
  omega

theorem Covers.append {cs ds : List (Finset Nat)} {P Q : Nat → Prop} (h1 : Covers cs P)
    (h2 : Covers ds Q) (hPQ : ∀ v, P v → Q v → False) : Covers (cs ++ ds) (fun v => P v ∨ Q v) := by
  refine ⟨?_, ?_, ?_⟩
  · intro v
    beta_reduce
    rw [h1.1 v, h2.1 v]
    constructor
    · rintro (⟨c, hc, hv⟩ | ⟨c, hc, hv⟩)
      · exact ⟨c, by simp [hc], hv⟩
      · exact ⟨c, by simp [hc], hv⟩
    · rintro ⟨c, hc, hv⟩
      rcases List.mem_append.1 hc with hc | hc
      · exact Or.inl ⟨c, hc, hv⟩
      · exact Or.inr ⟨c, hc, hv⟩
  · rw [List.pairwise_append]
    refine ⟨h1.2.1, h2.2.1, ?_⟩
    intro c hc d hd
    rw [Finset.disjoint_left]
    intro v hvc hvd
    exact hPQ v ((h1.1 v).2 ⟨c, hc, hvc⟩) ((h2.1 v).2 ⟨d, hd, hvd⟩)
  · intro c hc
    rcases List.mem_append.1 hc with hc | hc
    · exact h1.2.2 c hc
    · exact h2.2.2 c hc

theorem Covers.congr {cs : List (Finset Nat)} {P Q : Nat → Prop} (h : Covers cs P)
    (hPQ : ∀ v, Q v ↔ P v) : Covers cs Q := ⟨fun v => (hPQ v).trans (h.1 v), h.2⟩

theorem trueStability_append (A : Autocov K) (cs ds : List (Finset Nat)) :
    trueStability A (cs ++ ds) = trueStability A cs + trueStability A ds := by
  unfold trueStability
  rw [List.map_append, List.sum_append]

theorem trueStability_singles (A : Autocov K) (l : List Nat) :
    trueStability A (l.map fun v => {v}) = (l.map fun v => A.toarray v v).sum := by
  unfold trueStability
  rw [List.map_map]
  congr 1
  apply List.map_congr_left
  intro v _
  simp

theorem clusterParts_spec (sc : Nat → Sched) (par : Params K) {A : Autocov K} (hA : Loaded A)
    {label : Nat → Nat} (hc : Comps A label) (L : List Nat) (hnd : L.Nodup)
    (hL : ∀ c ∈ L, 1 < (compNodes A.PT.nrows label c).length) (i : Nat) :
    ∃ cs g, clusterParts sc par i (L.map fun c =>
        (A.aggregate (idxList A.PT.nrows label c), compNodes A.PT.nrows label c)) = .ok (cs, g) ∧
      Covers cs (fun v => v < A.PT.nrows ∧ label v ∈ L) ∧
      (∀ c ∈ cs, ∀ u ∈ c, ∀ v ∈ c, label u = label v) ∧
      g = trueStability A cs + (L.map (partConst A label)).sum ∧
      ((∀ c ∈ L, (A.aggregate (idxList A.PT.nrows label c)).isAllZeros = false) →
        ((L.flatMap (compNodes A.PT.nrows label)).map fun v => A.toarray v v).sum
          ≤ trueStability A cs) := by
  induction L generalizing i with
  | nil =>
    exact ⟨[], 0, rfl, ⟨by simp, by simp, by simp⟩, by simp, by simp [trueStability],
      by simp [trueStability]⟩
  | cons c L ih =>
    obtain ⟨cs, g, e1, c1, s1, w1⟩ := clusterOne_spec (sc i) par hA hc c (hL c (by simp))
    rw [List.nodup_cons] at hnd
    obtain ⟨ds, h, e2, c2, l2, s2, w2⟩ := ih hnd.2 (fun d hd => hL d (by simp [hd])) (i + 1)
    refine ⟨cs ++ ds, g + h, ?_, ?_, ?_, ?_, ?_⟩
    · rw [List.map_cons, clusterParts, e1]
      simp only
      rw [e2]
    · apply (c1.append c2 _).congr
      · intro v
        rw [mem_compNodes, List.mem_cons]
        tauto
      · intro v hv1 hv2
        rw [mem_compNodes] at hv1
        rw [hv1.2] at hv2
        exact hnd.1 hv2.2
    · intro d hd u hu v hv
      rcases List.mem_append.1 hd with hd | hd
      · have h1 := mem_compNodes.1 ((c1.1 u).2 ⟨d, hd, hu⟩)
        have h2 := mem_compNodes.1 ((c1.1 v).2 ⟨d, hd, hv⟩)
        rw [h1.2, h2.2]
      · exact l2 d hd u hu v hv
    · rw [s1, s2, trueStability_append, List.map_cons, List.sum_cons]
      ring
    · intro hz
      rw [List.flatMap_cons, List.map_append, List.sum_append, trueStability_append]
      exact add_le_add (w1 (hz c (by simp))) (w2 fun d hd => hz d (by simp [hd]))

theorem keptSingle_some {initP1 : Bool} {A : Autocov K} {label : Nat → Nat} {c v : Nat} :
    keptSingle initP1 A label c = some v ↔
      compNodes A.PT.nrows label c = [v] ∧ ¬ (initP1 = true ∧ ¬ 0 < p1At A v) := by
  unfold keptSingle
  match hn : compNodes A.PT.nrows label c with
  | [] => simp
  | [w] =>
    simp only
    split
    · rename_i h
      simp only [reduceCtorEq, List.cons.injEq, and_true, false_iff, not_and, not_not]
      rintro rfl hh
      exact h.2 (hh h.1)
    · rename_i h
      simp only [Option.some.injEq, List.cons.injEq, and_true]
      constructor
      · rintro rfl
        exact ⟨rfl, h⟩
      · exact fun h => h.1
  | a :: b :: r => simp

theorem compNodes_single {n : Nat} {label : Nat → Nat} {v : Nat} (hv : v < n) :
    compNodes n label (label v) = [v] ↔ ∀ u < n, label u = label v → u = v := by
  constructor
  · intro h u hu hl
    have := mem_compNodes.2 ⟨hu, hl⟩
    rw [h] at this
    simpa using this
  · intro h
    have hnd := nodup_compNodes n label (label v)
    have hmem : ∀ u, u ∈ compNodes n label (label v) ↔ u ∈ [v] := by
      intro u
      rw [mem_compNodes, List.mem_singleton]
      constructor
      · exact fun hu => h u hu.1 hu.2
      · rintro rfl
        exact ⟨hv, rfl⟩
    have hp := (List.perm_ext_iff_of_nodup hnd (by simp)).2 hmem
    exact List.perm_singleton.1 hp

theorem covers_singles {initP1 : Bool} {A : Autocov K} {label : Nat → Nat} (hc : Comps A label) :
    Covers ((split initP1 A label).singles.map fun v => ({v} : Finset Nat))
      (fun v => v < A.PT.nrows ∧ compNodes A.PT.nrows label (label v) = [v] ∧
        ¬ (initP1 = true ∧ ¬ 0 < p1At A v)) := by
  rw [(split_eq initP1 A label).2]
  have hmem : ∀ v, v ∈ (uniqueLabels A.PT.nrows label).filterMap (keptSingle initP1 A label) ↔
      (v < A.PT.nrows ∧ compNodes A.PT.nrows label (label v) = [v] ∧
        ¬ (initP1 = true ∧ ¬ 0 < p1At A v)) := by
    intro v
    rw [List.mem_filterMap]
    constructor
    · rintro ⟨c, _, h⟩
      rw [keptSingle_some] at h
      have hv : v ∈ compNodes A.PT.nrows label c := by rw [h.1]; simp
      rw [mem_compNodes] at hv
      obtain ⟨hv, rfl⟩ := hv
      exact ⟨hv, h⟩
    · rintro ⟨hv, h⟩
      exact ⟨label v, (mem_uniqueLabels hc _).2 ⟨v, hv, rfl⟩, keptSingle_some.2 h⟩
  have hnd : ((uniqueLabels A.PT.nrows label).filterMap (keptSingle initP1 A label)).Nodup := by
    apply List.Nodup.filterMap _ (List.nodup_range.filter _)
    intro a b v ha hb
    rw [Option.mem_def, keptSingle_some] at ha hb
    have h1 : v ∈ compNodes A.PT.nrows label a := by rw [ha.1]; simp
    have h2 : v ∈ compNodes A.PT.nrows label b := by rw [hb.1]; simp
    rw [mem_compNodes] at h1 h2
    rw [← h1.2, ← h2.2]
  refine ⟨?_, ?_, ?_⟩
  · intro v
    beta_reduce
    rw [← hmem]
    constructor
    · exact fun h => ⟨{v}, List.mem_map.2 ⟨v, h, rfl⟩, by simp⟩
    · rintro ⟨c, hcm, hv⟩
      rw [List.mem_map] at hcm
      obtain ⟨w, hw, rfl⟩ := hcm
      rw [Finset.mem_singleton] at hv
      rwa [hv]
  · rw [List.pairwise_map]
    exact hnd.imp fun {a b} h => by simpa using h
  · intro c hcm
    rw [List.mem_map] at hcm
    obtain ⟨w, _, rfl⟩ := hcm
    simp

theorem dropped_iff {initP1 : Bool} {A : Autocov K} {label : Nat → Nat} (hc : Comps A label)
    {v : Nat} (hv : v < A.PT.nrows) :
    Dropped initP1 A v ↔ (initP1 = true ∧ ¬ 0 < p1At A v) ∧
      compNodes A.PT.nrows label (label v) = [v] := by
  unfold Dropped
  rw [compNodes_single hv, and_assoc]
  have : (∀ u < A.PT.nrows, u ≠ v → ¬ Relation.EqvGen (Edge A) u v) ↔
      ∀ u < A.PT.nrows, label u = label v → u = v := by
    constructor
    · intro h u hu hl
      by_contra hne
      exact h u hu hne ((hc.same u hu v hv).1 hl)
    · intro h u hu hne he
      exact hne (h u hu ((hc.same u hu v hv).2 he))
  rw [this]

/-- The difference between what the script reports and the sum of the covariance inside the
clusters. -/
def shift (initP1 : Bool) (A : Autocov K) (label : Nat → Nat) : K :=
  ((bigLabels A.PT.nrows label).map (partConst A label)).sum -
    ((split initP1 A label).singles.map fun v => A.toarray v v).sum

theorem runComps_spec (sc : Nat → Sched) (par : Params K) (initP1 : Bool) {A : Autocov K}
    (hA : Loaded A) {label : Nat → Nat} (hc : Comps A label) :
    ∃ cl stab, runComps sc par initP1 A label = .ok (cl, stab) ∧
      Covers cl (fun v => v < A.PT.nrows ∧ ¬ Dropped initP1 A v) ∧
      (∀ c ∈ cl, ∀ u ∈ c, ∀ v ∈ c, label u = label v) ∧
      stab = trueStability A cl + shift initP1 A label ∧
      ((∀ c ∈ bigLabels A.PT.nrows label,
          (A.aggregate (idxList A.PT.nrows label c)).isAllZeros = false) →
        (((bigLabels A.PT.nrows label).flatMap (compNodes A.PT.nrows label)).map
            fun v => A.toarray v v).sum +
          ((split initP1 A label).singles.map fun v => A.toarray v v).sum
          ≤ trueStability A cl) := by
  obtain ⟨h1, h2⟩ := split_eq initP1 A label
  have hnd : (bigLabels A.PT.nrows label).Nodup := (List.nodup_range.filter _).filter _
  obtain ⟨cs, g, e, c1, l1, s1, w1⟩ := clusterParts_spec sc par hA hc
    (bigLabels A.PT.nrows label) hnd (fun c h => big_length hc c h) 0
  have c2 := covers_singles (initP1 := initP1) hc
  refine ⟨cs ++ (split initP1 A label).singles.map fun v => {v}, g, ?_, ?_, ?_, ?_, ?_⟩
  · unfold runComps
    simp only
    rw [h1, e]
  · apply (c1.append c2 _).congr
    · intro v
      have hb : v < A.PT.nrows → (label v ∈ bigLabels A.PT.nrows label ↔
          compNodes A.PT.nrows label (label v) ≠ [v]) := by
        intro hv
        unfold bigLabels
        rw [List.mem_filter, mem_uniqueLabels hc]
        have hm : v ∈ compNodes A.PT.nrows label (label v) := mem_compNodes.2 ⟨hv, rfl⟩
        constructor
        · rintro ⟨_, h⟩ heq
          rw [heq] at h
          simp at h
        · intro h
          refine ⟨⟨v, hv, rfl⟩, ?_⟩
          simp only [ne_eq, decide_eq_true_eq]
          intro hl
          obtain ⟨w, hw⟩ := List.length_eq_one_iff.1 hl
          rw [hw] at hm h
          simp only [List.mem_singleton] at hm
          exact h (by rw [hm])
      constructor
      · rintro ⟨hv, hd⟩
        rw [dropped_iff hc hv] at hd
        by_cases h : compNodes A.PT.nrows label (label v) = [v]
        · exact Or.inr ⟨hv, h, fun h' => hd ⟨h', h⟩⟩
        · exact Or.inl ⟨hv, (hb hv).2 h⟩
      · rintro (⟨hv, h⟩ | ⟨hv, h, h'⟩)
        · exact ⟨hv, fun hd => (hb hv).1 h ((dropped_iff hc hv).1 hd).2⟩
        · exact ⟨hv, fun hd => h' ((dropped_iff hc hv).1 hd).1⟩
    · rintro v ⟨hv, h⟩ ⟨_, h', _⟩
      have := big_length hc _ h
      rw [h'] at this
      simp at this
  · intro d hd u hu v hv
    rcases List.mem_append.1 hd with hd | hd
    · exact l1 d hd u hu v hv
    · rw [List.mem_map] at hd
      obtain ⟨w, _, rfl⟩ := hd
      rw [Finset.mem_singleton] at hu hv
      rw [hu, hv]
  · rw [s1, trueStability_append, trueStability_singles]
    unfold shift
    ring
  · intro hz
    rw [trueStability_append, trueStability_singles]
    have := w1 hz
    linarith

/-! ## The statements -/

/-- **C70.** With `separate_comps` every run succeeds: neither the assertion nor the
translation of the clusters back to nodes can fail.  The clusters are non-empty and disjoint,
together they hold every node except the nodes without probability and without edges to
others, and two nodes are in the same cluster only if a chain of edges joins them. -/
theorem C70_components_partition (sc : Nat → Sched) (par : Params K) (initP1 : Bool)
    (A : Autocov K) (hA : Loaded A) (label : Nat → Nat) (hc : Comps A label) :
    ∃ cl stab, runComps sc par initP1 A label = .ok (cl, stab) ∧
      Covers cl (fun v => v < A.PT.nrows ∧ ¬ Dropped initP1 A v) ∧
      ∀ c ∈ cl, ∀ u ∈ c, ∀ v ∈ c, Relation.EqvGen (Edge A) u v := by
  obtain ⟨cl, stab, h1, h2, h3, _⟩ := runComps_spec sc par initP1 hA hc
  refine ⟨cl, stab, h1, h2, ?_⟩
  intro c hcm u hu v hv
  have hu' := ((h2.1 u).2 ⟨c, hcm, hu⟩).1
  have hv' := ((h2.1 v).2 ⟨c, hcm, hv⟩).1
  exact (hc.same u hu' v hv').1 (h3 c hcm u hu v hv)

/-- **C70, partial.** The reported stability differs from the covariance inside the clusters
by an amount that depends on the data only, not on random orders or search parameters.  So
runs are ranked correctly.  Missing: the reported number itself is not the stability, see
the violation below. -/
theorem C70_reported_shift_partial (initP1 : Bool) (A : Autocov K) (hA : Loaded A)
    (label : Nat → Nat) (hc : Comps A label) :
    ∃ const : K, ∀ (sc : Nat → Sched) (par : Params K) (cl : List (Finset Nat)) (stab : K),
      runComps sc par initP1 A label = .ok (cl, stab) → stab = trueStability A cl + const := by
  refine ⟨shift initP1 A label, ?_⟩
  intro sc par cl stab h
  obtain ⟨cl', stab', h1, _, _, h4, _⟩ := runComps_spec sc par initP1 hA hc
  rw [h1] at h
  injection h with h
  simp only [Prod.mk.injEq] at h
  rw [← h.1, ← h.2]
  exact h4

/-- **C70.** The run reported as the better of two is the better one. -/
theorem C70_ranking (initP1 : Bool) (A : Autocov K) (hA : Loaded A)
    (label : Nat → Nat) (hc : Comps A label) (sc1 sc2 : Nat → Sched) (par1 par2 : Params K)
    (cl1 cl2 : List (Finset Nat)) (stab1 stab2 : K)
    (h1 : runComps sc1 par1 initP1 A label = .ok (cl1, stab1))
    (h2 : runComps sc2 par2 initP1 A label = .ok (cl2, stab2)) :
    stab1 ≤ stab2 ↔ trueStability A cl1 ≤ trueStability A cl2 := by
  obtain ⟨const, h⟩ := C70_reported_shift_partial initP1 A hA label hc
  rw [h _ _ _ _ h1, h _ _ _ _ h2]
  exact add_le_add_iff_right const

theorem nodup_bigNodes (n : Nat) (label : Nat → Nat) :
    ((bigLabels n label).flatMap (compNodes n label)).Nodup := by
  rw [List.nodup_flatMap]
  refine ⟨fun c _ => nodup_compNodes n label c, ?_⟩
  have hnd : (bigLabels n label).Nodup := (List.nodup_range.filter _).filter _
  refine hnd.imp ?_
  intro a b hab v hva hvb
  rw [mem_compNodes] at hva hvb
  exact hab (hva.2.symm.trans hvb.2)

/-- **C70, partial.** If no component is taken to be all zeros, the clusters are at least as
good as every kept node on its own.  Missing: components taken to be all zeros are returned as
one cluster whatever its covariance. -/
theorem C70_no_worse_partial (sc : Nat → Sched) (par : Params K) (initP1 : Bool)
    (A : Autocov K) (hA : Loaded A) (label : Nat → Nat) (hc : Comps A label)
    (hz : ∀ c, (∃ u < A.PT.nrows, ∃ v < A.PT.nrows, u ≠ v ∧ label u = c ∧ label v = c) →
      (A.aggregate (idxList A.PT.nrows label c)).isAllZeros = false) :
    ∃ cl stab, runComps sc par initP1 A label = .ok (cl, stab) ∧
      ∃ kept : Finset Nat, (∀ v, v ∈ kept ↔ v < A.PT.nrows ∧ ¬ Dropped initP1 A v) ∧
        ∑ v ∈ kept, A.toarray v v ≤ trueStability A cl := by
  obtain ⟨cl, stab, h1, h2, _, _, h5⟩ := runComps_spec sc par initP1 hA hc
  have hbig : ∀ c ∈ bigLabels A.PT.nrows label,
      ∃ u < A.PT.nrows, ∃ v < A.PT.nrows, u ≠ v ∧ label u = c ∧ label v = c := by
    intro c hcb
    have hl := big_length hc c hcb
    have m0 := mem_compNodes.1 (List.getElem_mem
      (show 0 < (compNodes A.PT.nrows label c).length by omega))
    have m1 := mem_compNodes.1 (List.getElem_mem hl)
    refine ⟨_, m0.1, _, m1.1, ?_, m0.2, m1.2⟩
    intro he
    have := (nodup_compNodes A.PT.nrows label c).getElem_inj_iff.1 he
    omega
  have h6 := h5 fun c hcb => hz c (hbig c hcb)
  have hcs := covers_singles (initP1 := initP1) hc
  have hsm : ∀ v, v ∈ (split initP1 A label).singles ↔ v < A.PT.nrows ∧
      compNodes A.PT.nrows label (label v) = [v] ∧ ¬ (initP1 = true ∧ ¬ 0 < p1At A v) := by
    intro v
    refine Iff.trans ?_ (hcs.1 v).symm
    simp
  have hsnd : (split initP1 A label).singles.Nodup := by
    have := hcs.2.1
    rw [List.pairwise_map] at this
    exact this.imp fun {a b} h => by simpa using h
  have hbm : ∀ v, v ∈ (bigLabels A.PT.nrows label).flatMap (compNodes A.PT.nrows label) ↔
      v < A.PT.nrows ∧ compNodes A.PT.nrows label (label v) ≠ [v] := by
    intro v
    rw [List.mem_flatMap]
    constructor
    · rintro ⟨c, hcb, hv⟩
      rw [mem_compNodes] at hv
      obtain ⟨hv, rfl⟩ := hv
      refine ⟨hv, fun h => ?_⟩
      have := big_length hc _ hcb
      rw [h] at this
      simp at this
    · rintro ⟨hv, h⟩
      have hm : v ∈ compNodes A.PT.nrows label (label v) := mem_compNodes.2 ⟨hv, rfl⟩
      refine ⟨label v, ?_, hm⟩
      unfold bigLabels
      rw [List.mem_filter, mem_uniqueLabels hc]
      refine ⟨⟨v, hv, rfl⟩, ?_⟩
      simp only [ne_eq, decide_eq_true_eq]
      intro hl
      obtain ⟨w, hw⟩ := List.length_eq_one_iff.1 hl
      rw [hw] at hm h
      simp only [List.mem_singleton] at hm
      exact h (by rw [hm])
  have hnd : (((bigLabels A.PT.nrows label).flatMap (compNodes A.PT.nrows label)) ++
      (split initP1 A label).singles).Nodup := by
    rw [List.nodup_append]
    refine ⟨nodup_bigNodes _ _, hsnd, ?_⟩
    rintro a ha b hb rfl
    exact ((hbm a).1 ha).2 ((hsm a).1 hb).2.1
  refine ⟨cl, stab, h1, (((bigLabels A.PT.nrows label).flatMap (compNodes A.PT.nrows label)) ++
      (split initP1 A label).singles).toFinset, ?_, ?_⟩
  · intro v
    rw [List.mem_toFinset, List.mem_append, hbm, hsm]
    constructor
    · rintro (⟨hv, h⟩ | ⟨hv, h, h'⟩)
      · exact ⟨hv, fun hd => h ((dropped_iff hc hv).1 hd).2⟩
      · exact ⟨hv, fun hd => h' ((dropped_iff hc hv).1 hd).1⟩
    · rintro ⟨hv, hd⟩
      rw [dropped_iff hc hv] at hd
      by_cases h : compNodes A.PT.nrows label (label v) = [v]
      · exact Or.inr ⟨hv, h, fun h' => hd ⟨h', h⟩⟩
      · exact Or.inl ⟨hv, h⟩
  · rw [List.sum_toFinset _ hnd, List.map_append, List.sum_append]
    exact h6

theorem largest_spec {A : Autocov K} {label : Nat → Nat} (hc : Comps A label) (hn : 0 < A.PT.nrows) :
    (∃ v < A.PT.nrows, label v = largestLabel A.PT.nrows label) ∧
      ∀ d, (compNodes A.PT.nrows label d).length ≤
        (compNodes A.PT.nrows label (largestLabel A.PT.nrows label)).length := by
  have hex : ∃ c < A.PT.nrows, ∀ d < A.PT.nrows, (compNodes A.PT.nrows label d).length ≤
      (compNodes A.PT.nrows label c).length := by
    obtain ⟨c, hcm, hmax⟩ := Finset.exists_max_image (Finset.range A.PT.nrows)
      (fun c => (compNodes A.PT.nrows label c).length) ⟨0, Finset.mem_range.2 hn⟩
    exact ⟨c, Finset.mem_range.1 hcm, fun d hd => hmax d (Finset.mem_range.2 hd)⟩
  have hlt : ∀ d, A.PT.nrows ≤ d → (compNodes A.PT.nrows label d).length = 0 := by
    intro d hd
    rw [List.length_eq_zero_iff, List.eq_nil_iff_forall_not_mem]
    intro v hv
    rw [mem_compNodes] at hv
    have := hc.lt v hv.1
    omega
  have hmax : ∀ d, (compNodes A.PT.nrows label d).length ≤
      (compNodes A.PT.nrows label (largestLabel A.PT.nrows label)).length := by
    intro d
    by_cases hd : A.PT.nrows ≤ d
    · rw [hlt d hd]; omega
    unfold largestLabel
    match hf : (List.range A.PT.nrows).find? fun c => (List.range A.PT.nrows).all fun d =>
        decide ((compNodes A.PT.nrows label d).length ≤ (compNodes A.PT.nrows label c).length) with
    | none =>
      exfalso
      obtain ⟨c, hcl, hcm⟩ := hex
      rw [List.find?_eq_none] at hf
      apply hf c (List.mem_range.2 hcl)
      simp only [List.all_eq_true, List.mem_range, decide_eq_true_eq]
      exact hcm
    | some c =>
      have := List.find?_some hf
      simp only [List.all_eq_true, List.mem_range, decide_eq_true_eq] at this
      exact this d (by omega)
  refine ⟨?_, hmax⟩
  have h0 : 0 < (compNodes A.PT.nrows label (label 0)).length :=
    List.length_pos_of_mem (mem_compNodes.2 ⟨hn, rfl⟩)
  have := hmax (label 0)
  obtain ⟨v, hv⟩ := List.exists_mem_of_length_pos (show 0 <
    (compNodes A.PT.nrows label (largestLabel A.PT.nrows label)).length by omega)
  exact ⟨v, mem_compNodes.1 hv⟩

/-- **C70, partial.** With `only_largest_comp`, if some two nodes are joined by an edge and
the covariance with the rest put together is not taken to be all zeros: the run succeeds, the
saved nodes are exactly one connected component and no component has more nodes, the saved
clusters divide the positions `0 ... size`, position 0, which stands for all other nodes, is
alone in the first cluster, and the reported stability is the sum of the covariance of the
aggregated matrix inside the clusters. -/
theorem C70_largest_partial (sc : Sched) (par : Params K) (A : Autocov K) (hA : Loaded A)
    (label : Nat → Nat) (hc : Comps A label)
    (hedge : ∃ u v, u ≠ v ∧ Edge A u v)
    (hz : (A.aggregate (idxList A.PT.nrows label (largestLabel A.PT.nrows label))).isAllZeros
      = false) :
    ∃ cl stab nodes, runLargest sc par A label = .ok (cl, stab, nodes) ∧ nodes.Nodup ∧
      (∃ v < A.PT.nrows, ∀ u, u ∈ nodes ↔ u < A.PT.nrows ∧ Relation.EqvGen (Edge A) u v) ∧
      (∀ (c : Finset Nat) (w : Nat), w < A.PT.nrows →
        (∀ u ∈ c, u < A.PT.nrows ∧ Relation.EqvGen (Edge A) u w) → c.card ≤ nodes.length) ∧
      IsPartition (nodes.length + 1) cl ∧ (∀ c ∈ cl, c.Nonempty) ∧ cl[0]? = some {0} ∧
      stab = trueStability
        (A.aggregate (idxList A.PT.nrows label (largestLabel A.PT.nrows label))) cl := by
  have hn := hA.fit.pos
  obtain ⟨⟨v, hv, hvl⟩, hmax⟩ := largest_spec hc hn
  have h1 : 1 < (compNodes A.PT.nrows label (largestLabel A.PT.nrows label)).length := by
    obtain ⟨a, b, hab, he⟩ := hedge
    have hl := (hc.same a he.1 b he.2.1).2 (Relation.EqvGen.rel _ _ he)
    have h2 := hmax (label a)
    have : 1 < (compNodes A.PT.nrows label (label a)).length := by
      by_contra hlt
      have hma := mem_compNodes.2 ⟨he.1, (rfl : label a = label a)⟩
      have hmb := mem_compNodes.2 ⟨he.2.1, hl.symm⟩
      have hp := List.length_pos_of_mem hma
      obtain ⟨w, hw⟩ := List.length_eq_one_iff.1
        (show (compNodes A.PT.nrows label (label a)).length = 1 by omega)
      rw [hw, List.mem_singleton] at hma hmb
      exact hab (hma.trans hmb.symm)
    omega
  obtain ⟨f, hnr, _⟩ := fit0_piece hA.fit label (largestLabel A.PT.nrows label)
  have iso := iso_piece hA hc _ h1
  obtain ⟨q, hq, hq1, hq2, hq3⟩ := Verif.Louvain.mk'_none
    (A.aggregate (idxList A.PT.nrows label (largestLabel A.PT.nrows label))).PT.nrows false
  have hmk : mkS (A.aggregate (idxList A.PT.nrows label (largestLabel A.PT.nrows label))) .none
      = .ok ⟨A.aggregate (idxList A.PT.nrows label (largestLabel A.PT.nrows label)), q⟩ := by
    unfold mkS
    rw [hq]
  obtain ⟨k, p, r1, r2, r3, r4, r5, r6⟩ := find_isolated sc par
    ⟨A.aggregate (idxList A.PT.nrows label (largestLabel A.PT.nrows label)), q⟩ f iso hmk hz
  have hpt := r2.1
  rw [r3] at hpt
  simp only at hpt
  rw [hnr] at hpt
  refine ⟨p.clusters,
    sStability (A.aggregate (idxList A.PT.nrows label (largestLabel A.PT.nrows label))) p,
    compNodes A.PT.nrows label (largestLabel A.PT.nrows label), ?_, nodup_compNodes _ _ _,
    ⟨v, hv, ?_⟩, ?_, hpt, r4, r6, ?_⟩
  · unfold runLargest
    simp only
    rw [hmk]
    simp only
    rw [r1]
  · intro u
    rw [mem_compNodes, ← hvl]
    constructor
    · rintro ⟨hu, h⟩
      exact ⟨hu, (hc.same u hu v hv).1 h⟩
    · rintro ⟨hu, h⟩
      exact ⟨hu, (hc.same u hu v hv).2 h⟩
  · intro c w hw hcw
    refine le_trans ?_ (hmax (label w))
    rw [← List.toFinset_card_of_nodup (nodup_compNodes A.PT.nrows label (label w))]
    apply Finset.card_le_card
    intro u hu
    rw [List.mem_toFinset, mem_compNodes]
    exact ⟨(hcw u hu).1, (hc.same u (hcw u hu).1 w hw).2 (hcw u hu).2⟩
  · rw [sStability_eq, Verif.Louvain.stability_eq]
    rfl

/-! ### Examples -/

/-- Five nodes: 0 and 2 exchange walkers, so do 1 and 3; node 4 has no probability. -/
def exPT : Csr ℚ := ofRows 5 [[(0, 1 / 8), (2, 1 / 8)], [(1, 1 / 8), (3, 1 / 8)],
  [(0, 1 / 8), (2, 1 / 8)], [(1, 1 / 8), (3, 1 / 8)], []]

/-- A quarter each for the first four nodes. -/
def exProb : Nat → ℚ := fun i => if i < 4 then 1 / 4 else 0

/-- The covariance as the script builds it. -/
def exCov : Autocov ℚ := mkAutocov exPT (.vectors exProb exProb) true

/-- The component labels. -/
def exLabel : Nat → Nat
  | 0 => 0
  | 1 => 1
  | 2 => 0
  | 3 => 1
  | _ => 2

theorem exLoaded : Loaded exCov := by
  have hwf : exPT.WF := wf_ofRows _ _ (by decide +kernel)
  have hg : Good exCov := good_mk _ _ _ hwf (by decide) (by unfold Csr.NoRepeats; decide +kernel)
    (fun _ i j hi hj => (by decide +kernel : ∀ i < 5, ∀ j < 5, exPT.val i j = exPT.val j i) i hi j hj)
  exact ⟨⟨hg, fun _ i j hi hj => (by decide +kernel : ∀ i < 5, ∀ j < 5,
      exCov.PT.val i j = exCov.PT.val j i) i hi j hj, ⟨by decide +kernel, by decide +kernel⟩,
      ⟨by decide +kernel, by decide +kernel⟩, by decide +kernel⟩, rfl⟩

theorem exComps : Comps exCov exLabel := by
  have h1 : ∀ a < exCov.PT.nrows, ∀ b < exCov.PT.nrows, 0 < exCov.PT.val a b →
      exLabel a = exLabel b := by decide +kernel
  have h2 : ∀ a < exCov.PT.nrows, ∀ b < exCov.PT.nrows, exLabel a = exLabel b →
      a = b ∨ 0 < exCov.PT.val a b := by decide +kernel
  have h3 : ∀ a b, Relation.EqvGen (Edge exCov) a b → exLabel a = exLabel b := by
    intro a b h
    induction h with
    | rel a b h => exact h1 a h.1 b h.2.1 h.2.2
    | refl a => rfl
    | symm a b _ ih => exact ih.symm
    | trans a b c _ _ ih1 ih2 => exact ih1.trans ih2
  refine ⟨by decide +kernel, ?_⟩
  intro i hi j hj
  refine ⟨fun h => ?_, h3 i j⟩
  rcases h2 i hi j hj h with rfl | hp
  · exact Relation.EqvGen.refl i
  · exact Relation.EqvGen.rel i j ⟨hi, hj, hp⟩

/-- Non-vacuity: the example meets the conditions, node 4 and only node 4 is dropped, both
components are clustered, and the largest component is that of node 0. -/
example : Loaded exCov ∧ Comps exCov exLabel ∧ (∃ u v, u ≠ v ∧ Edge exCov u v) ∧
    (∀ c < 2, (exCov.aggregate (idxList exCov.PT.nrows exLabel c)).isAllZeros = false) ∧
    largestLabel exCov.PT.nrows exLabel = 0 ∧
    (split true exCov exLabel).parts.length = 2 ∧ (split true exCov exLabel).singles = [] ∧
    (split false exCov exLabel).singles = [4] := by
  exact ⟨exLoaded, exComps, ⟨0, 2, by decide, by decide, by decide, by decide +kernel⟩,
    by decide +kernel, by decide +kernel, by decide +kernel, by decide +kernel, by decide +kernel⟩

/-- What a run reports: clusters as sorted lists, stability. -/
def shown (r : Except CErr (List (Finset Nat) × ℚ)) : Option (List (List Nat) × ℚ) :=
  match r with
  | .ok (cl, g) => some (cl.map listSet, g)
  | .error _ => none

/-- The whole run on the example. -/
example : shown (runComps (fun _ => exSched) exPar true exCov exLabel) =
    some ([[0, 2], [1, 3]], 1) := by decide +kernel

/-- **C70 is violated for the reported stability:** on the example every run, with whatever
random orders, reports a stability that is too large by one half, because the covariance inside
the meta node is counted once per component. -/
theorem C70_reported_violated : ∃ (A : Autocov ℚ) (label : Nat → Nat), Loaded A ∧ Comps A label ∧
    ∀ (sc : Nat → Sched) (par : Params ℚ), ∃ cl stab, runComps sc par true A label = .ok (cl, stab) ∧
      stab = trueStability A cl + 1 / 2 := by
  refine ⟨exCov, exLabel, exLoaded, exComps, ?_⟩
  intro sc par
  obtain ⟨cl, stab, h1, _, _, h4, _⟩ := runComps_spec sc par true exLoaded exComps
  refine ⟨cl, stab, h1, ?_⟩
  rw [h4]
  have : shift true exCov exLabel = 1 / 2 := by decide +kernel
  rw [this]

end Verif.Comps
