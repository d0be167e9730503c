import Verif.Scripts.CompLemmas

/-!
# Clustering of one component
-/

set_option linter.unusedSectionVars false

namespace Verif.Comps

open Verif.Partition Verif.Autocov Verif.SparseLouvain Verif.Csr
open Verif.Louvain (Sched Params listSet mem_listSet listSet_nodup blockSum)

variable {K : Type} [Field K] [LinearOrder K] [IsStrictOrderedRing K]

theorem mapNodes_eq (nodes l : List Nat) (h : ∀ k ∈ l, 1 ≤ k ∧ k ≤ nodes.length) :
    mapNodes nodes l = some (l.map fun k => nodes.getD (k - 1) 0) := by
  induction l with
  | nil => rfl
  | cons k l ih =>
    have hk := h k (by simp)
    have hm : nodeMap nodes k = some (nodes.getD (k - 1) 0) := by
      unfold nodeMap
      rw [if_neg (by omega), List.getD_eq_getElem?_getD, List.getElem?_eq_getElem (by omega)]
      rfl
    unfold mapNodes
    rw [hm, ih fun x hx => h x (by simp [hx])]
    rfl

theorem mapClusters_eq (nodes : List Nat) (cl : List (Finset Nat))
    (h : ∀ c ∈ cl, ∀ k ∈ c, 1 ≤ k ∧ k ≤ nodes.length) :
    mapClusters nodes cl = some (cl.map fun c => c.image fun k => nodes.getD (k - 1) 0) := by
  induction cl with
  | nil => rfl
  | cons c cl ih =>
    unfold mapClusters
    rw [mapNodes_eq nodes (listSet c) fun k hk => h c (by simp) k ((mem_listSet c k).1 hk),
      ih fun d hd => h d (by simp [hd])]
    simp only [List.map_cons, Option.some.injEq, List.cons.injEq, and_true]
    ext v
    simp [mem_listSet]

/-- What the script adds for a component beyond the covariance inside its clusters: the
covariance inside the meta node, or, for a component taken to be all zeros, the negative of
the covariance inside the component. -/
def partConst (A : Autocov K) (label : Nat → Nat) (c : Nat) : K :=
  if (A.aggregate (idxList A.PT.nrows label c)).isAllZeros = true then
    - ∑ i ∈ (compNodes A.PT.nrows label c).toFinset, ∑ j ∈ (compNodes A.PT.nrows label c).toFinset,
        A.toarray i j
  else
    ∑ i ∈ (restNodes A.PT.nrows label c).toFinset, ∑ j ∈ (restNodes A.PT.nrows label c).toFinset,
        A.toarray i j

theorem pairSum_toFinset (S : Nat → Nat → K) (g : List Nat) (h : g.Nodup) :
    pairSum S g g = ∑ i ∈ g.toFinset, ∑ j ∈ g.toFinset, S i j := by
  unfold pairSum
  rw [← List.sum_toFinset _ h]
  exact Finset.sum_congr rfl fun i _ => (List.sum_toFinset _ h).symm

theorem clusterOne_spec (sc : Sched) (par : Params K) {A : Autocov K} (hA : Loaded A)
    {label : Nat → Nat} (hc : Comps A label) (c : Nat)
    (h1 : 1 < (compNodes A.PT.nrows label c).length) :
    ∃ cs g, clusterOne sc par (A.aggregate (idxList A.PT.nrows label c))
        (compNodes A.PT.nrows label c) = .ok (cs, g) ∧
      Covers cs (fun v => v ∈ compNodes A.PT.nrows label c) ∧
      g = trueStability A cs + partConst A label c ∧
      ((A.aggregate (idxList A.PT.nrows label c)).isAllZeros = false →
        ((compNodes A.PT.nrows label c).map fun v => A.toarray v v).sum ≤ trueStability A cs) := by
  obtain ⟨f, hn, harr⟩ := fit0_piece hA.fit label c
  have iso := iso_piece hA hc c h1
  have hpos := harr 0 (by rw [length_idxList]; omega) 0 (by rw [length_idxList]; omega)
  have htp := fun k l hk hl => toarray_piece hA.fit label c k l hk hl
  rw [idxList_zero] at hpos
  have hnd := nodup_compNodes A.PT.nrows label c
  have hndr : (restNodes A.PT.nrows label c).Nodup := List.nodup_range.filter _
  have hpc : partConst A label c = if (A.aggregate (idxList A.PT.nrows label c)).isAllZeros = true then
    - ∑ i ∈ (compNodes A.PT.nrows label c).toFinset, ∑ j ∈ (compNodes A.PT.nrows label c).toFinset,
        A.toarray i j
    else (A.aggregate (idxList A.PT.nrows label c)).toarray 0 0 := by
    unfold partConst
    rw [hpos, pairSum_toFinset _ _ hndr]
  rw [hpc]
  generalize hN : compNodes A.PT.nrows label c = nodes at *
  generalize A.aggregate (idxList A.PT.nrows label c) = B at *
  obtain ⟨q, hq, hq1, hq2, hq3⟩ := Verif.Louvain.mk'_none B.PT.nrows false
  have hmk : mkS B .none = .ok ⟨B, q⟩ := by
    unfold mkS
    rw [hq]
  have hfresh : Fresh (⟨B, q⟩ : SClu K) := hmk
  unfold clusterOne
  rw [hmk]
  simp only
  by_cases hz : B.isAllZeros = true
  · rw [if_pos hz]
    have hfind : sFindLouvain sc par ⟨B, q⟩ = .ok (0, removeEmpty ⟨B.PT.nrows,
        [Finset.range B.PT.nrows], dictOf [Finset.range B.PT.nrows]⟩) := by
      unfold sFindLouvain
      rw [hz, Verif.Louvain.mk'_clusterList]
      rfl
    have hcl : (removeEmpty ⟨B.PT.nrows, [Finset.range B.PT.nrows],
        dictOf [Finset.range B.PT.nrows]⟩).clusters = [Finset.range B.PT.nrows] := by
      unfold removeEmpty
      dsimp only
      rw [List.filter_cons_of_pos (by simpa using f.pos), List.filter_nil]
    rw [hfind]
    simp only
    rw [if_pos (by unfold numClusters; rw [hcl]; rfl)]
    refine ⟨_, _, rfl, ⟨?_, by simp, ?_⟩, ?_, fun h => by rw [hz] at h; simp at h⟩
    · intro v
      simp
    · intro d hd
      simp only [List.mem_singleton] at hd
      subst hd
      exact ⟨nodes[0], by simp⟩
    · simp [trueStability]
  · rw [if_neg hz]
    rw [Bool.not_eq_true] at hz
    obtain ⟨k, p, r1, r2, r3, r4, r5, r6⟩ := find_isolated sc par ⟨B, q⟩ f iso hfresh hz
    rw [r1]
    simp only at r2 r3 r4 r5 r6 ⊢
    have hpt := r2.1
    rw [r3, hn] at hpt
    have h00 : At p.clusters 0 0 := ⟨_, r6, by simp⟩
    have hd0 : p.dict 0 = some 0 := by
      have := (r2.2 0 0).2 ⟨0, rfl, h00⟩
      simpa using this
    match hcl : p.clusters with
    | [] => rw [hcl] at r6; simp at r6
    | c0 :: tail =>
      rw [hcl] at r6
      simp only [List.getElem?_cons_zero, Option.some.injEq] at r6
      subst r6
      -- every other cluster holds nodes 1..len
      have hat : ∀ m v, At tail m v ↔ At p.clusters (m + 1) v := by
        intro m v
        rw [hcl]
        rfl
      have hrange : ∀ m v, At tail m v → 1 ≤ v ∧ v ≤ nodes.length := by
        intro m v hv
        rw [hat] at hv
        have h2 := Verif.Louvain.at_lt_n hpt hv
        have h3 : v ≠ 0 := by
          rintro rfl
          have := hpt.disj 0 (m + 1) 0 hv h00
          omega
        omega
      have hmemat : ∀ d ∈ tail, ∀ v ∈ d, ∃ m, At tail m v := by
        intro d hd v hv
        obtain ⟨m, hm⟩ := List.mem_iff_getElem?.1 hd
        exact ⟨m, d, hm, hv⟩
      have hr : ∀ d ∈ tail, ∀ v ∈ d, 1 ≤ v ∧ v ≤ nodes.length := by
        intro d hd v hv
        obtain ⟨m, hm⟩ := hmemat d hd v hv
        exact hrange m v hm
      have hcover : ∀ v, 1 ≤ v → v ≤ nodes.length → ∃ d ∈ tail, v ∈ d := by
        intro v hv1 hv2
        obtain ⟨m, hm, _⟩ := (hpt v).1 (by omega)
        match m with
        | 0 =>
          obtain ⟨d, hd, hvd⟩ := hm
          rw [hcl] at hd
          simp only [List.getElem?_cons_zero, Option.some.injEq] at hd
          subst hd
          simp at hvd
          omega
        | m + 1 =>
          rw [← hat] at hm
          obtain ⟨d, hd, hvd⟩ := hm
          exact ⟨d, List.mem_of_getElem? hd, hvd⟩
      have hnum : ¬ numClusters p false = 1 := by
        unfold numClusters
        rw [hcl]
        obtain ⟨d, hd, _⟩ := hcover 1 (by omega) (by omega)
        simp only [Bool.false_eq_true, if_false, List.length_cons]
        have := List.length_pos_of_mem hd
        omega
      rw [if_neg hnum]
      simp only
      rw [if_pos ⟨by simp, hd0⟩, mapClusters_eq nodes tail hr]
      simp only
      have hinj : ∀ d ∈ tail, Set.InjOn (fun k => nodes.getD (k - 1) 0) (d : Set Nat) := by
        intro d hd a ha b hb hab
        obtain ⟨ha1, ha2⟩ := hr d hd a ha
        obtain ⟨hb1, hb2⟩ := hr d hd b hb
        simp only [List.getD_eq_getElem?_getD, List.getElem?_eq_getElem (show a - 1 < nodes.length by omega),
          List.getElem?_eq_getElem (show b - 1 < nodes.length by omega), Option.getD_some] at hab
        have := hnd.getElem_inj_iff.1 hab
        omega
      have hgk : ∀ k (hk : k < nodes.length), nodes.getD k 0 = nodes[k] := by
        intro k hk
        rw [List.getD_eq_getElem?_getD, List.getElem?_eq_getElem hk]
        rfl
      have htoarr : ∀ d ∈ tail, ∀ a ∈ d, ∀ b ∈ d,
          A.toarray (nodes.getD (a - 1) 0) (nodes.getD (b - 1) 0) = B.toarray a b := by
        intro d hd a ha b hb
        obtain ⟨ha1, ha2⟩ := hr d hd a ha
        obtain ⟨hb1, hb2⟩ := hr d hd b hb
        have := htp (a - 1) (b - 1) (by omega) (by omega)
        rw [Nat.sub_add_cancel ha1, Nat.sub_add_cancel hb1] at this
        rw [this, hgk _ (by omega), hgk _ (by omega)]
      have htrue : trueStability A (tail.map fun d => d.image fun k => nodes.getD (k - 1) 0) =
          (tail.map fun d => blockSum B.toarray d d).sum := by
        unfold trueStability
        rw [List.map_map]
        congr 1
        apply List.map_congr_left
        intro d hd
        show (∑ i ∈ d.image _, ∑ j ∈ d.image _, A.toarray i j) = _
        rw [Finset.sum_image (hinj d hd)]
        unfold blockSum
        refine Finset.sum_congr rfl fun a ha => ?_
        rw [Finset.sum_image (hinj d hd)]
        exact Finset.sum_congr rfl fun b hb => htoarr d hd a ha b hb
      have hstab : sStability B p = trueStability A
          (tail.map fun d => d.image fun k => nodes.getD (k - 1) 0) + B.toarray 0 0 := by
        rw [sStability_eq, Verif.Louvain.stability_eq, hcl, List.map_cons, List.sum_cons, htrue]
        simp [blockSum, add_comm]
      refine ⟨_, _, rfl, ⟨?_, ?_, ?_⟩, hstab, fun _ => ?_⟩
      · intro v
        constructor
        · intro hv
          obtain ⟨k, hk, rfl⟩ := List.getElem_of_mem hv
          obtain ⟨d, hd, hkd⟩ := hcover (k + 1) (by omega) (by omega)
          refine ⟨_, List.mem_map.2 ⟨d, hd, rfl⟩, Finset.mem_image.2 ⟨k + 1, hkd, ?_⟩⟩
          exact hgk k hk
        · rintro ⟨e, he, hv⟩
          rw [List.mem_map] at he
          obtain ⟨d, hd, rfl⟩ := he
          rw [Finset.mem_image] at hv
          obtain ⟨k, hk, rfl⟩ := hv
          obtain ⟨hk1, hk2⟩ := hr d hd k hk
          rw [hgk (k - 1) (by omega)]
          exact List.getElem_mem _
      · rw [List.pairwise_map, List.pairwise_iff_getElem]
        intro i j hi hj hij
        rw [Finset.disjoint_left]
        intro v hv1 hv2
        rw [Finset.mem_image] at hv1 hv2
        obtain ⟨a, ha, rfl⟩ := hv1
        obtain ⟨b, hb, hab⟩ := hv2
        have hai : At tail i a := ⟨_, List.getElem?_eq_getElem hi, ha⟩
        have hbj : At tail j b := ⟨_, List.getElem?_eq_getElem hj, hb⟩
        obtain ⟨ha1, ha2⟩ := hrange i a hai
        obtain ⟨hb1, hb2⟩ := hrange j b hbj
        rw [hgk (a - 1) (by omega), hgk (b - 1) (by omega)] at hab
        have := hnd.getElem_inj_iff.1 hab
        have hab' : a = b := by omega
        subst hab'
        have := hpt.disj a (i + 1) (j + 1) ((hat i a).1 hai) ((hat j a).1 hbj)
        omega
      · intro e he
        rw [List.mem_map] at he
        obtain ⟨d, hd, rfl⟩ := he
        exact (r4 d (by rw [hcl]; simp [hd])).image _
      · have hs : sStability B q = B.toarray 0 0 + (nodes.map fun v => A.toarray v v).sum := by
          rw [sStability_eq, Verif.Louvain.stability_eq, hq3, hn]
          unfold singletons
          rw [List.range_succ_eq_map, List.map_cons, List.map_cons, List.sum_cons]
          congr 1
          · simp [blockSum]
          · rw [List.map_map, List.map_map]
            have : nodes.map (fun v => A.toarray v v) =
                (List.range nodes.length).map fun k => A.toarray (nodes.getD k 0) (nodes.getD k 0) := by
              apply List.ext_getElem (by simp)
              intro k hk1 hk2
              simp only [List.getElem_map, List.getElem_range]
              rw [hgk k (by simpa using hk1)]
            rw [this]
            congr 1
            apply List.map_congr_left
            intro k hk
            have hk := List.mem_range.1 hk
            simp only [Function.comp, blockSum, Finset.sum_singleton]
            rw [htp k k hk hk, hgk k hk]
        rw [hs, hstab] at r5
        linarith

end Verif.Comps
