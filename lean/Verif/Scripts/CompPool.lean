import Verif.Scripts.Comp

/-!
# C71: the number of worker processes does not matter
-/

set_option linter.unusedSectionVars false
set_option linter.unusedSimpArgs false

namespace Verif.Comps

open Verif.Partition Verif.Autocov Verif.SparseLouvain Verif.Csr
open Verif.Louvain (Sched Params listSet mem_listSet listSet_nodup exSched exPar updatePart
  getCluster potentialNewClusters)

variable {K : Type} [Field K] [LinearOrder K] [IsStrictOrderedRing K]

/-- `S.p2[i]`. -/
def p2At (A : Autocov K) (i : Nat) : K :=
  match A.w with
  | .scalars _ b => b
  | .vectors _ p2 => p2 i

/-- `_init_sub_worker` (run_clusterings.py:470-490) and the body of the loop of
`_init_sub_worker_list` (run_clusterings.py:493-515): the object each worker process builds
from the shared arrays.  The probabilities are shared as arrays also if the object held
numbers (run_clusterings.py:258, 296, 767-768). -/
def rebuild (A : Autocov K) : Autocov K :=
  mkAutocov A.PT (.vectors (p1At A) (p2At A)) true

/-- `_compute_clustering_fct` (run_clusterings.py:517-546): cluster list and stability. -/
def runWhole (sc : Sched) (par : Params K) (A : Autocov K) :
    Except SErr (List (Finset Nat) × K) :=
  match mkS A .none with
  | .error e => .error e
  | .ok c =>
    match sFindLouvain sc par c with
    | .error e => .error e
    | .ok (_, p) => .ok (p.clusters, sStability A p)

/-- `runComps` with a pool of processes (run_clusterings.py:738-757). -/
def runCompsPool (sc : Nat → Sched) (par : Params K) (initP1 : Bool) (A : Autocov K)
    (label : Nat → Nat) : Except CErr (List (Finset Nat) × K) :=
  let s := split initP1 A label
  match clusterParts sc par 0 (s.parts.map fun q => (rebuild q.1, q.2)) with
  | .error e => .error e
  | .ok (cs, g) => .ok (cs ++ s.singles.map fun v => {v}, g)

theorem sortRow_sortRow (n : Nat) (r : List (Nat × K)) : sortRow n (sortRow n r) = sortRow n r := by
  have key : ∀ j < n, (sortRow n r).filter (fun e => e.1 == j) = r.filter fun e => e.1 == j := by
    intro j hj
    unfold sortRow
    have : ∀ (l : List Nat), l.Nodup → (l.flatMap fun i => r.filter fun e => e.1 == i).filter
        (fun e => e.1 == j) = if j ∈ l then r.filter fun e => e.1 == j else [] := by
      intro l
      induction l with
      | nil => simp
      | cons a l ih =>
        intro hnd
        rw [List.nodup_cons] at hnd
        rw [List.flatMap_cons, List.filter_append, ih hnd.2, List.filter_filter]
        by_cases h : a = j
        · subst h
          rw [if_neg hnd.1, if_pos (by simp), List.append_nil]
          congr 1
          funext e
          simp
        · have h1 : (r.filter fun e => (e.1 == j && e.1 == a)) = [] := by
            rw [List.filter_eq_nil_iff]
            intro e _
            simp only [Bool.and_eq_true, beq_iff_eq, not_and]
            intro h1 h2
            exact h (h2.symm.trans h1)
          rw [h1, List.nil_append]
          have h2 : j ∈ a :: l ↔ j ∈ l := by
            rw [List.mem_cons]
            exact ⟨fun hh => hh.resolve_left fun hh => h hh.symm, Or.inr⟩
          simp only [h2]
    rw [this _ List.nodup_range, if_pos (List.mem_range.2 hj)]
  conv_lhs => unfold sortRow
  conv_rhs => unfold sortRow
  rw [List.flatMap_def, List.flatMap_def]
  congr 1
  apply List.map_congr_left
  intro j hj
  exact key j (List.mem_range.1 hj)

theorem sortIndices_sortIndices (M : Csr K) : sortIndices (sortIndices M) = sortIndices M := by
  have h : sortIndices (sortIndices M) = ofRows (sortIndices M).ncols
      ((List.range (sortIndices M).nrows).map fun i =>
        sortRow (sortIndices M).ncols ((sortIndices M).row i)) := rfl
  rw [h, nrows_sortIndices, ncols_sortIndices]
  conv_rhs => unfold sortIndices
  congr 1
  apply List.map_congr_left
  intro i hi
  rw [row_sortIndices M i (List.mem_range.1 hi), sortRow_sortRow]

/-- The worker's object of a symmetric object with vector weights is the object itself. -/
theorem rebuild_vectors (PT : Csr K) (p1 p2 : Nat → K) :
    rebuild (mkAutocov PT (.vectors p1 p2) true) = mkAutocov PT (.vectors p1 p2) true := by
  unfold rebuild mkAutocov
  simp only [if_true, sortIndices_sortIndices]
  rfl

theorem rebuild_aggregate (A : Autocov K) (h : A.symmetric = true) (groups : List (List Nat)) :
    rebuild (A.aggregate groups) = A.aggregate groups := by
  unfold Autocov.aggregate
  rw [h]
  exact rebuild_vectors _ _ _

/-- The object with the same matrix and the numbers replaced by constant vectors. -/
def spread (A : Autocov K) : Autocov K := { A with w := .vectors (p1At A) (p2At A) }

theorem rebuild_mk (PT : Csr K) (w : Weights K) :
    rebuild (mkAutocov PT w true) = spread (mkAutocov PT w true) := by
  unfold rebuild spread mkAutocov
  simp only [if_true, sortIndices_sortIndices]

/-! ## Numbers and constant vectors compute the same -/

theorem p0_spread (A : Autocov K) (i j : Nat) : (spread A).w.p0 i j = A.w.p0 i j := by
  unfold spread p1At p2At
  cases A.w <;> rfl

theorem toarray_spread (A : Autocov K) (i j : Nat) : (spread A).toarray i j = A.toarray i j := by
  unfold Autocov.toarray
  rw [p0_spread]
  rfl

theorem isAllZeros_spread (A : Autocov K) : (spread A).isAllZeros = A.isAllZeros := by
  unfold Autocov.isAllZeros
  simp only [p0_spread]
  rfl

theorem foldl_sub_const (a b : K) (idx : List Nat) (s : K) :
    idx.foldl (fun s _ => s - a * b - a * b) s = s - 2 * idx.length * (a * b) := by
  induction idx generalizing s with
  | nil => simp
  | cons i l ih =>
    rw [List.foldl_cons, ih]
    push_cast [List.length_cons]
    ring

theorem foldl_add_const (a b : K) (idx : List Nat) (s : K) :
    idx.foldl (fun s _ => s + a * b + a * b) s = s + 2 * idx.length * (a * b) := by
  induction idx generalizing s with
  | nil => simp
  | cons i l ih =>
    rw [List.foldl_cons, ih]
    push_cast [List.length_cons]
    ring

theorem deltaTo_spread (A : Autocov K) (k : Nat) (idx : List Nat) :
    (spread A).deltaTo k idx = A.deltaTo k idx := by
  unfold Autocov.deltaTo
  have h : deltaPTto (spread A).PT (spread A).PTcsc k idx = deltaPTto A.PT A.PTcsc k idx := rfl
  rw [h]
  match deltaPTto A.PT A.PTcsc k idx with
  | .error e => rfl
  | .ok s =>
    simp only
    unfold spread p1At p2At
    cases A.w with
    | scalars a b =>
      simp only [foldl_sub_const, Except.ok.injEq]
      ring
    | vectors p1 p2 => rfl

theorem deltaOut_spread (A : Autocov K) (k : Nat) (idx : List Nat) :
    (spread A).deltaOut k idx = A.deltaOut k idx := by
  unfold Autocov.deltaOut
  have h : deltaPTout (spread A).PT (spread A).PTcsc k idx = deltaPTout A.PT A.PTcsc k idx := rfl
  rw [h]
  match deltaPTout A.PT A.PTcsc k idx with
  | .error e => rfl
  | .ok s =>
    simp only
    unfold spread p1At p2At
    cases A.w with
    | scalars a b =>
      simp only [foldl_add_const, Except.ok.injEq]
      ring
    | vectors p1 p2 => rfl

theorem sMoveLoop_spread (sc : Sched) (m : Nat) (thr : K) (nSub : Nat) (A : Autocov K)
    (steps nLoop : Nat) (dLoop dTot : K) (p : Part) :
    sMoveLoop sc m thr nSub (spread A) steps nLoop dLoop dTot p =
      sMoveLoop sc m thr nSub A steps nLoop dLoop dTot p := by
  have hTo : ∀ p k cf, sDeltaTo (spread A) p k cf = sDeltaTo A p k cf := by
    intro p k cf
    unfold sDeltaTo
    simp only [deltaTo_spread]
  have hOut : ∀ p k cf, sDeltaOut (spread A) p k cf = sDeltaOut A p k cf := by
    intro p k cf
    unfold sDeltaOut
    simp only [deltaOut_spread]
  have hScan : ∀ p node ci rOut l best c,
      sScan (spread A) p node ci rOut l best c = sScan A p node ci rOut l best c := by
    intro p node ci rOut l
    induction l with
    | nil => intros; rfl
    | cons cf l ih =>
      intro best c
      unfold sScan
      simp only [hTo, ih]
  have hVisit : ∀ it p v, sVisit (spread A) it p v = sVisit A it p v := by
    intro it p v
    unfold sVisit
    simp only [hOut, hScan]
    rfl
  have hSweep : ∀ it l d p, sSweep (spread A) it l d p = sSweep A it l d p := by
    intro it l
    induction l with
    | nil => intros; rfl
    | cons v l ih =>
      intro d p
      unfold sSweep
      simp only [hVisit, ih]
  induction steps generalizing nLoop dLoop dTot p with
  | zero => rfl
  | succ steps ih =>
    unfold sMoveLoop
    simp only [hSweep, ih]
    rfl

theorem sStability_spread (A : Autocov K) (p : Part) : sStability (spread A) p = sStability A p := by
  rw [sStability_eq, sStability_eq]
  congr 1
  funext i j
  exact toarray_spread A i j

theorem aggregate_spread (A : Autocov K)
    (hw : ∀ a b, A.w = .scalars a b → a = 1 / (A.PT.nrows : K) ∧ b = 1 / (A.PT.nrows : K))
    (groups : List (List Nat)) : (spread A).aggregate groups = A.aggregate groups := by
  unfold Autocov.aggregate spread p1At p2At
  cases h : A.w with
  | scalars a b =>
    obtain ⟨rfl, rfl⟩ := hw a b h
    rfl
  | vectors p1 p2 => rfl

theorem sMetaLoop_spread (sc : Sched) (par : Params K) (A : Autocov K)
    (hw : ∀ a b, A.w = .scalars a b → a = 1 / (A.PT.nrows : K) ∧ b = 1 / (A.PT.nrows : K))
    (steps k : Nat) (delta : K) (stop : Bool) (self : Part) (mc mc' : SClu K)
    (hmc : mc'.part = mc.part ∧ (mc'.A = mc.A ∨ mc'.A = spread mc.A)) :
    sMetaLoop sc par (spread A) steps k delta stop self mc' =
      sMetaLoop sc par A steps k delta stop self mc := by
  induction steps generalizing k delta stop self mc mc' with
  | zero => rfl
  | succ steps ih =>
    have hmove : ∀ k n, sMoveNodes sc k par.thr par.nSub mc' n = sMoveNodes sc k par.thr par.nSub mc n := by
      intro k n
      unfold sMoveNodes
      rw [hmc.1]
      rcases hmc.2 with h | h
      · rw [h]
      · rw [h, sMoveLoop_spread]
    unfold sMetaLoop
    split
    · rfl
    · dsimp only
      rw [hmove]
      match sMoveNodes sc (k + 1) par.thr par.nSub mc (par.nSub + 1) with
      | .error e => rfl
      | .ok (d, _, mp) =>
        simp only
        match updatePart self mp with
        | .error e => rfl
        | .ok self' =>
          simp only
          split
          · exact ih _ _ _ _ _ _ ⟨rfl, hmc.2⟩
          · unfold sAggregate
            have hnr : (spread A).PT.nrows = A.PT.nrows := rfl
            rw [hnr]
            by_cases hl : self'.clusters.length = A.PT.nrows
            · rw [if_pos hl, if_pos hl]
              unfold mkS
              rw [hnr]
              match mk' A.PT.nrows .none false with
              | .error e => rfl
              | .ok q => exact ih _ _ _ _ _ _ ⟨rfl, Or.inr rfl⟩
            · rw [if_neg hl, if_neg hl, aggregate_spread A hw]
              match mkS (A.aggregate (self'.clusters.map listSet)) .none with
              | .error e => rfl
              | .ok mc2 => exact ih _ _ _ _ _ _ ⟨rfl, Or.inl rfl⟩

theorem sFindLouvain_spread (sc : Sched) (par : Params K) (A : Autocov K) (p : Part)
    (hw : ∀ a b, A.w = .scalars a b → a = 1 / (A.PT.nrows : K) ∧ b = 1 / (A.PT.nrows : K)) :
    sFindLouvain sc par ⟨spread A, p⟩ = sFindLouvain sc par ⟨A, p⟩ := by
  unfold sFindLouvain
  simp only [isAllZeros_spread]
  split
  · rfl
  · unfold mkS
    have hnr : (spread A).PT.nrows = A.PT.nrows := rfl
    rw [hnr]
    match mk' A.PT.nrows (.clusterList p.clusters) false with
    | .error e => rfl
    | .ok q => exact sMetaLoop_spread sc par A hw _ _ _ _ _ _ _ ⟨rfl, Or.inr rfl⟩

/-! ## The statements -/

/-- **C71.** For the covariance the script builds, with the same number `1/n` for all nodes or
with one number per node, the worker processes and the main process return the same clusters
and the same stability for the same random orders, or fail in the same way. -/
theorem C71_whole (sc : Sched) (par : Params K) (PT : Csr K) (w : Weights K)
    (hw : w = .scalars (1 / (PT.nrows : K)) (1 / (PT.nrows : K)) ∨ ∃ p1 p2, w = .vectors p1 p2) :
    runWhole sc par (rebuild (mkAutocov PT w true)) = runWhole sc par (mkAutocov PT w true) := by
  rw [rebuild_mk]
  have hnr : (spread (mkAutocov PT w true)).PT.nrows = (mkAutocov PT w true).PT.nrows := rfl
  have hw' : ∀ a b, (mkAutocov PT w true).w = .scalars a b →
      a = 1 / ((mkAutocov PT w true).PT.nrows : K) ∧ b = 1 / ((mkAutocov PT w true).PT.nrows : K) := by
    intro a b h
    have h : w = .scalars a b := h
    rw [nrows_mk]
    rcases hw with h1 | ⟨p1, p2, h1⟩
    · rw [h] at h1
      injection h1 with h1 h2
      exact ⟨h1, h2⟩
    · rw [h] at h1
      simp at h1
  unfold runWhole mkS
  rw [hnr]
  match mk' (mkAutocov PT w true).PT.nrows .none false with
  | .error e => rfl
  | .ok p =>
    simp only
    rw [sFindLouvain_spread sc par _ p hw']
    match sFindLouvain sc par ⟨mkAutocov PT w true, p⟩ with
    | .error e => rfl
    | .ok (k, q) =>
      simp only
      rw [sStability_spread]

/-- **C71.** The same for the components one by one. -/
theorem C71_components (sc : Nat → Sched) (par : Params K) (initP1 : Bool) (A : Autocov K)
    (h : A.symmetric = true) (label : Nat → Nat) :
    runCompsPool sc par initP1 A label = runComps sc par initP1 A label := by
  unfold runCompsPool runComps
  simp only
  have : (split initP1 A label).parts.map (fun q => (rebuild q.1, q.2)) =
      (split initP1 A label).parts := by
    rw [(split_eq initP1 A label).1, List.map_map]
    apply List.map_congr_left
    intro c _
    simp only [Function.comp, rebuild_aggregate A h]
  rw [this]
  match clusterParts sc par 0 (split initP1 A label).parts with
  | .error e => rfl
  | .ok (cs, g) => rfl

/-- Non-vacuity: on a symmetric matrix with entries stored out of order both ways of running
return two clusters. -/
example : (match runWhole exSched exPar (mkAutocov (ofRows 3
      [[(1, 1 / 6), (0, 1 / 6)], [(0, 1 / 6), (1, 1 / 6)], [(2, 1 / 3)]])
      (.scalars (1 / 3) (1 / 3)) true) with
    | .ok (cl, g) => some (cl.map listSet, g)
    | .error _ => none) = some ([[0, 1], [2]], (4 / 9 : ℚ)) := by decide +kernel

/-- The other flag value is not harmless: a worker treats the matrix as symmetric. -/
theorem C71_flag_needed : ∃ A : Autocov ℚ, Good A ∧ A.symmetric = false ∧
    (rebuild A).PTcsc.val 0 1 ≠ A.PTcsc.val 0 1 := by
  refine ⟨mkAutocov (ofRows 2 [[(1, 1)], []]) (.vectors (fun _ => 1) fun _ => 1) false,
    good_mk _ _ _ (wf_ofRows _ _ (by decide +kernel)) (by decide)
      (by unfold Csr.NoRepeats; decide +kernel) (fun h => by simp at h), rfl, by decide +kernel⟩

end Verif.Comps
