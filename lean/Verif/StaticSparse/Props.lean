import Verif.StaticSparse.Lemmas
import Verif.Static.Props

/-!
# C110: sparse static networks with nodes that have no edge
-/

namespace Verif.StaticSparse

open Verif.Csr Verif.Autocov Verif.Partition Verif.SparseLouvain
open Verif.Louvain (Sched Params potentialNewClusters listSet updatePart)
open Verif.Trans (Mat eye)
open Verif.Static (EigPair strength twoM Weighted Symm Time transition stationary tstat Stationary Balanced)

variable {K : Type} [Field K] [LinearOrder K] [IsStrictOrderedRing K]

theorem fst_row_fromT {T : Csr K} (hT : T.WF) (p q : Option (Nat → K)) {i : Nat} (hi : i < T.nrows) :
    ∀ e ∈ (fromT T p q).PT.row i, ∃ f ∈ T.row i, e = (f.1, f.2 * p.getD (uniform T.nrows) i) := by
  intro e he
  have hwf := wf_diagMatmul hT (p.getD (uniform T.nrows))
  change e ∈ (sortIndices (diagMatmul T (p.getD (uniform T.nrows)))).row i at he
  rw [row_sortIndices _ _ (by rw [diagMatmul, nrows_mapVals]; exact hi)] at he
  have he := (perm_sortRow _ _ (hwf.row_lt i)).subset he
  rw [diagMatmul, row_mapVals _ _ _ hi, List.mem_map] at he
  obtain ⟨f, hf, rfl⟩ := he
  exact ⟨f, hf, rfl⟩

theorem length_row_fromT {T : Csr K} (hT : T.WF) (p q : Option (Nat → K)) {i : Nat} (hi : i < T.nrows) :
    ((fromT T p q).PT.row i).length = (T.row i).length := by
  have hwf := wf_diagMatmul hT (p.getD (uniform T.nrows))
  change ((sortIndices (diagMatmul T (p.getD (uniform T.nrows)))).row i).length = _
  rw [row_sortIndices _ _ (by rw [diagMatmul, nrows_mapVals]; exact hi),
    (perm_sortRow _ _ (hwf.row_lt i)).length_eq, diagMatmul, row_mapVals _ _ _ hi, List.length_map]

theorem nrows_fromT (T : Csr K) (p q : Option (Nat → K)) : (fromT T p q).PT.nrows = T.nrows := by
  show (sortIndices (diagMatmul T _)).nrows = _
  rw [nrows_sortIndices, diagMatmul, nrows_mapVals]

theorem alone_fromT {T : Csr K} (hT : T.WF) (hsq : T.ncols = T.nrows) (p q : Option (Nat → K)) {z : Nat}
    (hz : z < T.nrows) (hrow : ∀ e ∈ T.row z, e.1 = z)
    (hcol : ∀ i < T.nrows, ∀ e ∈ T.row i, e.1 = z → i = z) : AloneAt (fromT T p q) z := by
  have hcsc : ∀ v < T.nrows, ∀ e ∈ (fromT T p q).PTcsc.row v, ∃ f ∈ T.row e.1, e.1 < T.nrows ∧ f.1 = v := by
    intro v hv e he
    change e ∈ (fromT T p q).PT.transpose.row v at he
    unfold Csr.transpose at he
    rw [row_ofRows_map _ _ _ _ (by
      show v < (sortIndices (diagMatmul T _)).ncols
      rw [ncols_sortIndices, diagMatmul, ncols_mapVals, hsq]; exact hv), List.mem_flatMap] at he
    obtain ⟨i, hi, he⟩ := he
    rw [List.mem_range, nrows_fromT] at hi
    obtain ⟨g, hg, rfl⟩ := List.mem_map.1 he
    obtain ⟨hg1, hg2⟩ := List.mem_filter.1 hg
    obtain ⟨f, hf, rfl⟩ := fst_row_fromT hT p q hi g hg1
    exact ⟨f, hf, hi, by simpa using hg2⟩
  have key : ∀ v < T.nrows, ∀ u ∈ sneighs (fromT T p q) v,
      (∃ f ∈ T.row v, f.1 = u) ∨ (u < T.nrows ∧ ∃ f ∈ T.row u, f.1 = v) := by
    intro v hv u hu
    unfold sneighs at hu
    rw [List.mem_toFinset, List.mem_append, List.mem_map, List.mem_map] at hu
    rcases hu with ⟨e, he, rfl⟩ | ⟨e, he, rfl⟩
    · obtain ⟨f, hf, rfl⟩ := fst_row_fromT hT p q hv e he
      exact Or.inl ⟨f, hf, rfl⟩
    · obtain ⟨f, hf, h1, h2⟩ := hcsc v hv e he
      exact Or.inr ⟨h1, f, hf, h2⟩
  constructor
  · intro u hu
    rcases key z hz u hu with ⟨f, hf, rfl⟩ | ⟨h1, f, hf, h2⟩
    · exact hrow f hf
    · exact hcol u h1 f hf h2
  · intro v hv hzv
    rw [nrows_fromT] at hv
    rcases key v hv z hzv with ⟨f, hf, h2⟩ | ⟨h1, f, hf, rfl⟩
    · exact hcol v hv f hf h2
    · exact hrow f hf

/-- The row of a group of probability zero holds nothing after the aggregation by pairs. -/
theorem aggregate_empty {A : Autocov K} {groups : List (List Nat)} {a z : Nat} (ha : a < groups.length)
    (hsmall : groups.length ^ 2 < A.PT.data.length) (hg : groups.getD a [] = [z])
    (h0 : ∀ e ∈ A.PT.row z, e.2 = 0) : (A.aggregate groups).PT.row a = [] := by
  have hz : ∀ cols : List Nat, submat A.PT [z] cols = 0 := by
    intro cols
    unfold submat
    simp only [List.foldl_cons, List.foldl_nil]
    have : ∀ l : List (Nat × K), (∀ e ∈ l, e.2 = 0) →
        l.foldl (fun s e => if e.1 ∈ cols then s + e.2 else s) 0 = 0 := by
      intro l
      induction l with
      | nil => intro _; rfl
      | cons e l ih =>
        intro h
        rw [List.foldl_cons, h e (by simp), add_zero, ite_self]
        exact ih fun f hf => h f (by simp [hf])
    exact this _ h0
  show (sortIndices (aggregatePT A.PT groups)).row a = []
  rw [row_sortIndices _ _ (by rw [(shape_aggregatePT A.PT groups).2.1]; exact ha)]
  have : (aggregatePT A.PT groups).row a = [] := by
    unfold aggregatePT
    rw [if_pos hsmall]
    unfold aggregate1
    rw [row_ofRows_map _ _ _ _ ha, hg, List.filterMap_eq_nil_iff]
    intro b _
    rw [hz, if_neg (lt_irrefl _)]
  rw [this]
  simp [sortRow]

/-- The partition induced on single nodes is the one found by the pass. -/
theorem updatePart_singletons {og mp : Part} {n : Nat} (hpos : 0 < n) (hog : Consistent og)
    (hogn : og.numNodes = n) (hsing : og.clusters = singletons n) (hmp : Consistent mp)
    (hmpn : mp.numNodes = n) (hmne : ∀ c ∈ mp.clusters, c.Nonempty) :
    ∃ p', updatePart og mp = .ok p' ∧ p'.clusters = mp.clusters := by
  have hne : ∀ c ∈ og.clusters, c.Nonempty := by
    rw [hsing]; exact Verif.Louvain.singletons_nonempty n
  have hlen : mp.numNodes = og.clusters.length := by rw [hsing, hmpn]; simp [singletons]
  obtain ⟨p', h1, h2, h3, h4, -⟩ := Verif.Louvain.updatePart_spec hog hne hmp hlen (by rw [hogn]; exact hpos)
  refine ⟨p', h1, ?_⟩
  have hat := Verif.Louvain.updatePart_at hog hne hmp hmne hlen (by rw [hogn]; exact hpos) p' h1
  have hs : ∀ s v, At og.clusters s v ↔ s = v ∧ v < n := by
    intro s v
    rw [hsing]
    unfold At singletons
    constructor
    · rintro ⟨c, hc, hv⟩
      rw [List.getElem?_map] at hc
      by_cases hsn : s < n
      · rw [List.getElem?_range hsn] at hc
        simp only [Option.map_some, Option.some.injEq] at hc
        subst hc
        have : v = s := by simpa using hv
        exact ⟨this.symm, by omega⟩
      · rw [List.getElem?_eq_none (by simpa using hsn)] at hc
        simp at hc
    · rintro ⟨rfl, hv⟩
      exact ⟨{s}, by rw [List.getElem?_map, List.getElem?_range hv]; rfl, by simp⟩
  have hat' : ∀ i v, At p'.clusters i v ↔ At mp.clusters i v := by
    intro i v
    rw [hat i v]
    constructor
    · rintro ⟨s, hs1, hs2⟩
      rw [((hs s v).1 hs1).1] at hs2
      exact hs2
    · intro h
      refine ⟨v, (hs v v).2 ⟨rfl, ?_⟩, h⟩
      have := Verif.Louvain.at_lt_n hmp.1 h
      omega
  apply List.ext_getElem?
  intro i
  have hnone : ∀ {l : List (Finset Nat)}, (∀ c ∈ l, c.Nonempty) → (l[i]? = none ↔ ∀ v, ¬ At l i v) := by
    intro l hl
    constructor
    · rintro h v ⟨c, hc, _⟩
      rw [h] at hc; cases hc
    · intro h
      by_contra hcon
      obtain ⟨c, hc⟩ := Option.ne_none_iff_exists'.1 hcon
      obtain ⟨v, hv⟩ := hl c (List.mem_of_getElem? hc)
      exact h v ⟨c, hc, hv⟩
  cases h : mp.clusters[i]? with
  | none =>
    rw [hnone h4]
    intro v
    rw [hat']
    exact (hnone hmne).1 h v
  | some c =>
    cases h' : p'.clusters[i]? with
    | none =>
      exfalso
      obtain ⟨v, hv⟩ := hmne c (List.mem_of_getElem? h)
      exact (hnone h4).1 h' v ((hat' i v).2 ⟨c, h, hv⟩)
    | some c' =>
      congr 1
      ext v
      have e1 : v ∈ c ↔ At mp.clusters i v :=
        ⟨fun hv => ⟨c, h, hv⟩, fun ⟨d, hd, hv⟩ => by rw [h] at hd; cases hd; exact hv⟩
      have e2 : v ∈ c' ↔ At p'.clusters i v :=
        ⟨fun hv => ⟨c', h', hv⟩, fun ⟨d, hd, hv⟩ => by rw [h'] at hd; cases hd; exact hv⟩
      rw [e1, e2, hat']

/-- The first pass over the nodes of the object `c`. -/
def firstPass (sc : Sched) (par : Params K) (c : SClu K) : Except SErr (K × Nat × Part) :=
  sMoveNodes sc 1 par.thr par.nSub c (par.nSub + 1)

/-- **C110, stored covariances.** Let the last node have probability zero and be stored with nothing but
itself.  If the first pass improves the stability and leaves fewer clusters than nodes, and so few
that their pairs are fewer than the stored numbers, then the search returns no partition: in the
second pass the last cluster has no stored entry and its gain is read outside the arrays. -/
theorem C110_stored_violated (sc : Sched) (par : Params K) (hthr : par.thr < 1) (hsub : 1 < par.nSub)
    (hmeta : 1 ≤ par.nMeta) (T : Csr K) (hT : T.WF) (hsq : T.ncols = T.nrows) (hr : T.NoRepeats) (p : Nat → K) {z : Nat}
    (hn : T.nrows = z + 1) (hrow : ∀ e ∈ T.row z, e.1 = z) (hcol : ∀ i < T.nrows, ∀ e ∈ T.row i, e.1 = z → i = z)
    (hp : p z = 0) {c : SClu K} (hc : mkS (fromT T (some p) (some p)) .none = .ok c)
    (hz : c.A.isAllZeros = false) {d : K} {k : Nat} {mp : Part} (hpass : firstPass sc par c = .ok (d, k, mp))
    (hd : par.thr < d) (hmerge : mp.clusters.length < T.nrows)
    (hfew : mp.clusters.length ^ 2 < T.data.length) :
    (∀ idx, (c.A.aggregate (mp.clusters.map listSet)).deltaOut (mp.clusters.length - 1) idx = .error .outOfBounds) ∧
      ∃ e, sFindLouvain sc par c = .error e := by
  have hcA : c.A = fromT T (some p) (some p) := by
    unfold mkS at hc
    split at hc
    · cases hc
    · cases hc; rfl
  have hnr : c.A.PT.nrows = z + 1 := by rw [hcA, nrows_fromT, hn]
  have hfresh : Fresh c := by unfold Fresh; rw [hcA]; exact hc
  obtain ⟨f1, f2, f3⟩ := fresh_part hfresh
  have halone : AloneAt c.A z := by rw [hcA]; exact alone_fromT hT hsq _ _ (by omega) hrow hcol
  have hlast : Last z c.part := by
    refine ⟨f1, by rw [f2, hnr], by rw [f3, hnr]; simp [singletons], ?_⟩
    rw [f3, hnr]
    unfold singletons
    rw [List.getElem?_map, List.getElem?_range (by omega)]
    rfl
  obtain ⟨m1, m2, m3, m4⟩ := sMoveLoop_last halone hnr sc 1 par.thr par.nSub _ _ _ _ _ hlast _ _ _ hpass
  obtain ⟨self', u1, u2⟩ := updatePart_singletons (n := z + 1) (by omega) f1 (by rw [f2, hnr])
    (by rw [f3, hnr]) m1 m2 m3
  have hlpos : 0 < mp.clusters.length := by
    rcases h : mp.clusters with _ | ⟨x, l⟩
    · rw [h] at m4; simp at m4
    · simp
  have hdata : c.A.PT.data.length = T.data.length := by
    have hwf : c.A.PT.WF := by rw [hcA]; exact (good_fromT T hT hsq hr _ _).wf
    have e1 := hwf.flatten_length c.A.PT.nrows (le_refl _)
    have e2 := hT.flatten_length T.nrows (le_refl _)
    rw [hwf.last] at e1
    rw [hT.last] at e2
    rw [← e1, ← e2, List.length_flatten, List.length_flatten, List.map_map, List.map_map, hcA, nrows_fromT]
    congr 1
    apply List.map_congr_left
    intro i hi
    exact length_row_fromT hT _ _ (List.mem_range.1 hi)
  have hgood : Good (c.A.aggregate (mp.clusters.map listSet)) := by
    obtain ⟨w1, w2, w3, w4⟩ := shape_aggregatePT c.A.PT (mp.clusters.map listSet)
    unfold Autocov.aggregate
    refine good_mk _ _ _ w1 (by rw [w2, w3]) w4 ?_
    intro h
    rw [hcA] at h
    simp [fromT, mkAutocov] at h
  have hrows : (c.A.aggregate (mp.clusters.map listSet)).PT.nrows = mp.clusters.length := by
    show (sortIndices (aggregatePT c.A.PT _)).nrows = _
    rw [nrows_sortIndices, (shape_aggregatePT c.A.PT (mp.clusters.map listSet)).2.1, List.length_map]
  have hempty : (c.A.aggregate (mp.clusters.map listSet)).PT.row (mp.clusters.length - 1) = [] := by
    refine aggregate_empty (z := z) (by rw [List.length_map]; omega) (by rw [List.length_map, hdata]; exact hfew) ?_ ?_
    · rw [List.getLast?_eq_getElem?] at m4
      rw [List.getD_eq_getElem?_getD, List.getElem?_map, m4]
      show listSet {z} = [z]
      have h := listSet_toFinset {z}
      have hnd := Verif.Louvain.listSet_nodup ({z} : Finset Nat)
      have hl := List.toFinset_card_of_nodup hnd
      rw [h, Finset.card_singleton] at hl
      obtain ⟨a, ha⟩ := List.length_eq_one_iff.1 hl.symm
      rw [ha] at h ⊢
      simpa using h
    · intro e he
      rw [hcA] at he
      obtain ⟨f, _, rfl⟩ := fst_row_fromT hT _ _ (by omega) e he
      simp [hp]
  have hfail : ∀ idx, (c.A.aggregate (mp.clusters.map listSet)).deltaOut (mp.clusters.length - 1) idx =
      .error .outOfBounds := fun idx =>
    (C19_trailing_empty_rows_fail _ hgood (mp.clusters.length - 1) (by rw [hrows]; omega) (fun i hi1 hi2 => by
      rw [hrows] at hi2
      have : i = mp.clusters.length - 1 := by omega
      rw [this]; exact hempty) idx).2
  refine ⟨hfail, ?_⟩
  obtain ⟨q, hq, q1, q2, q3⟩ := Verif.Louvain.mk'_none (c.A.aggregate (mp.clusters.map listSet)).PT.nrows false
  have hnot : ¬ ((∀ cl ∈ self'.clusters, cl.card = 1) ∨ par.nMeta < 0 + 1 ∨ d ≤ par.thr) := by
    rintro (h | h | h)
    · rw [u2] at h
      have hs := sum_card m1.1
      have : (mp.clusters.map Finset.card).sum = mp.clusters.length := by
        rw [List.map_congr_left (g := fun _ => 1) h]
        simp
      omega
    · omega
    · exact absurd h (not_le.2 hd)
  unfold sFindLouvain
  rw [hz, if_neg (by simp), mkS_same hfresh]
  simp only
  unfold sMetaLoop
  rw [if_neg (by
    rintro (h | h | h)
    · exact absurd h (not_le.2 hthr)
    · cases h
    · omega)]
  simp only
  have hpass' : sMoveNodes sc (0 + 1) par.thr par.nSub c (par.nSub + 1) = .ok (d, k, mp) := hpass
  rw [hpass']
  simp only
  rw [u1]
  simp only
  rw [if_neg hnot]
  unfold sAggregate
  rw [u2, if_neg (by omega)]
  unfold mkS
  rw [hq]
  simp only
  unfold sMetaLoop
  rw [if_neg (by
    rintro (h | h | h)
    · exact absurd h (not_le.2 hd)
    · cases h
    · omega)]
  simp only
  have : ∃ e, sMoveNodes sc (0 + 1 + 1) par.thr par.nSub
      ⟨c.A.aggregate (mp.clusters.map listSet), q⟩ (par.nSub + 1) = .error e := by
    unfold sMoveNodes sMoveLoop
    rw [if_pos ⟨hthr, hsub⟩]
    obtain ⟨e, he⟩ := Verif.SparseFlow.sSweep_empty hfail (sc.listing (0 + 1 + 1) 1)
      (sc.order (0 + 1 + 1) 1 (c.A.aggregate (mp.clusters.map listSet)).PT.nrows) 0 q
      ((sc.order_perm _ _ _).mem_iff.2 (List.mem_range.2 (by rw [hrows]; omega)))
    simp only
    rw [he]
    exact ⟨e, rfl⟩
  obtain ⟨e, he⟩ := this
  rw [he]
  exact ⟨e, rfl⟩

end Verif.StaticSparse
