import Verif.SparseRound.Spec
import Verif.Rounding.Lemmas
import Verif.Autocov.AggLemmas

/-!
# Runs of the sparse clustering in any arithmetic
-/

set_option linter.unusedSectionVars false

namespace Verif.SparseRound

open Verif.Partition Verif.Csr Verif.Autocov
open Verif.Louvain (Params getCluster potentialNewClusters updatePart at_lt_n
  getCluster_nat potential_ok moveNode_numNodes mk'_none mk'_clusterList
  singletons_nonempty)
open Verif.Rounding (Arith FSched updatePart_any)
open Verif.SparseLouvain (SErr SClu mkS sneighs)

variable {F : Type} (ar : SArith F)

/-! ### Reading the diagonal -/

theorem fScanDiag_ok (k m : Nat) (l : List (Nat × F)) (h : m < l.length) :
    ∃ o, fScanDiag k m l = .ok o := by
  induction l generalizing m with
  | nil => simp at h
  | cons e l ih =>
    rw [fScanDiag]
    split
    · rename_i h1
      exact ih (m - 1) (by simp at h; omega)
    · split
      · exact ⟨_, rfl⟩
      · exact ⟨_, rfl⟩

theorem drop_row (M : Csr F) (k : Nat) :
    (M.indices.zip M.data).drop (M.indptr.getD k 0) =
      M.row k ++ (M.indices.zip M.data).drop
        (M.indptr.getD k 0 + (M.indptr.getD (k + 1) 0 - M.indptr.getD k 0)) := by
  unfold Csr.row
  rw [← List.drop_drop, List.take_append_drop]

theorem last_row {M : Csr F} (h : M.WF) (hn : 0 < M.nrows) :
    (M.indices.zip M.data).drop (M.indptr.getD (M.nrows - 1) 0) = M.row (M.nrows - 1) := by
  rw [drop_row]
  have h1 : M.nrows - 1 + 1 = M.nrows := by omega
  have h2 := h.mono (M.nrows - 1) (by omega)
  rw [h1] at h2 ⊢
  rw [List.drop_eq_nil_of_le, List.append_nil]
  rw [List.length_zip, h.lens, h.last]
  have := h.last
  omega

theorem fReadDiag_ok {M : Csr F} (h : M.WF) (hlast : M.row (M.nrows - 1) ≠ []) {k : Nat}
    (hk : k < M.nrows) : ∃ o, fReadDiag M k = .ok o := by
  apply fScanDiag_ok
  have hl := last_row h (by omega)
  have hlen := h.row_length k hk
  have h3 : M.indptr.getD (k + 1) 0 ≤ M.data.length := by
    rw [← h.last]
    exact h.ptr_le _ _ (by omega) (le_refl _)
  have h4 : M.indptr.getD k 0 < M.data.length := by
    have h5 := h.ptr_le k (M.nrows - 1) (by omega) (by omega)
    have h6 : ((M.indices.zip M.data).drop (M.indptr.getD (M.nrows - 1) 0)).length ≠ 0 := by
      rw [hl]
      exact fun he => hlast (List.eq_nil_of_length_eq_zero he)
    rw [List.length_drop, List.length_zip, h.lens] at h6
    omega
  rw [List.length_drop, List.length_zip, h.lens]
  omega

theorem fReadDiag_last {M : Csr F} (h : M.WF) (hn : 0 < M.nrows) (hlast : M.row (M.nrows - 1) = []) :
    fReadDiag M (M.nrows - 1) = .error .read := by
  unfold fReadDiag
  rw [last_row h hn, hlast]
  rfl

theorem fReadDiag_cases (M : Csr F) (k : Nat) :
    fReadDiag M k = .error .read ∨ ∃ o, fReadDiag M k = .ok o := by
  have key : ∀ m (l : List (Nat × F)), fScanDiag k m l = .error .read ∨ ∃ o, fScanDiag k m l = .ok o := by
    intro m l
    induction l generalizing m with
    | nil => exact Or.inl rfl
    | cons e l ih =>
      rw [fScanDiag]
      split
      · exact ih _
      · split
        · exact Or.inr ⟨_, rfl⟩
        · exact Or.inr ⟨_, rfl⟩
  exact key _ _

theorem fDeltaTo_of (A : Autocov F) (k : Nat) (idx : List Nat) :
    (∀ e, fReadDiag A.PT k = .error e → fDeltaTo ar A k idx = .error e) ∧
    (∀ o, fReadDiag A.PT k = .ok o → ∃ r, fDeltaTo ar A k idx = .ok r) := by
  unfold fDeltaTo
  constructor
  · intro e h
    rw [h]
  · intro o h
    rw [h]
    simp only
    split
    · exact ⟨_, rfl⟩
    · exact ⟨_, rfl⟩

theorem fDeltaOut_of (A : Autocov F) (k : Nat) (idx : List Nat) :
    (∀ e, fReadDiag A.PT k = .error e → fDeltaOut ar A k idx = .error e) ∧
    (∀ o, fReadDiag A.PT k = .ok o → ∃ r, fDeltaOut ar A k idx = .ok r) := by
  unfold fDeltaOut
  constructor
  · intro e h
    rw [h]
  · intro o h
    rw [h]
    simp only
    split
    · exact ⟨_, rfl⟩
    · exact ⟨_, rfl⟩

/-! ### A visit, a pass, a phase -/

theorem scan_any (A : Autocov F) (lst : Finset Nat → List Nat) {p : Part} {v : Nat} {ci : Int}
    {rOut : F} (l : List Int)
    (hl : ∀ x ∈ l, x ≠ ci → ∃ r, deltaTo ar A lst p v x = .ok r) (best : F) (c : Int)
    (hinv : c = ci ∨ ∃ r, deltaTo ar A lst p v c = .ok r ∧ best = ar.add rOut r) :
    ∃ best' c', scan ar A lst p v ci rOut l best c = .ok (best', c') ∧
      (c' = ci ∨ ((c' = c ∨ c' ∈ l) ∧ ∃ r, deltaTo ar A lst p v c' = .ok r ∧
        best' = ar.add rOut r)) := by
  induction l generalizing best c with
  | nil =>
    refine ⟨best, c, rfl, ?_⟩
    rcases hinv with h | h
    · exact Or.inl h
    · exact Or.inr ⟨Or.inl rfl, h⟩
  | cons x l ih =>
    have hl' : ∀ y ∈ l, y ≠ ci → ∃ r, deltaTo ar A lst p v y = .ok r :=
      fun y hy => hl y (List.mem_cons_of_mem _ hy)
    by_cases hx : x = ci
    · obtain ⟨b, c', h1, h2⟩ := ih hl' best c hinv
      refine ⟨b, c', ?_, ?_⟩
      · simp only [scan, hx, ne_eq, not_true_eq_false, if_false]
        exact h1
      · rcases h2 with h2 | ⟨h2 | h2, h3⟩
        · exact Or.inl h2
        · exact Or.inr ⟨Or.inl h2, h3⟩
        · exact Or.inr ⟨Or.inr (List.mem_cons_of_mem _ h2), h3⟩
    · obtain ⟨r, hr⟩ := hl x (by simp) hx
      by_cases hb : ar.le best (ar.add rOut r) = true
      · obtain ⟨b, c', h1, h2⟩ := ih hl' (ar.add rOut r) x (Or.inr ⟨r, hr, rfl⟩)
        refine ⟨b, c', ?_, ?_⟩
        · simp only [scan, ne_eq, hx, not_false_eq_true, if_true, hr, hb]
          exact h1
        · rcases h2 with h2 | ⟨h2 | h2, h3⟩
          · exact Or.inl h2
          · exact Or.inr ⟨Or.inr (by simp [h2]), h3⟩
          · exact Or.inr ⟨Or.inr (List.mem_cons_of_mem _ h2), h3⟩
      · obtain ⟨b, c', h1, h2⟩ := ih hl' best c hinv
        refine ⟨b, c', ?_, ?_⟩
        · simp only [scan, ne_eq, hx, not_false_eq_true, if_true, hr, hb]
          exact h1
        · rcases h2 with h2 | ⟨h2 | h2, h3⟩
          · exact Or.inl h2
          · exact Or.inr ⟨Or.inl h2, h3⟩
          · exact Or.inr ⟨Or.inr (List.mem_cons_of_mem _ h2), h3⟩

/-- The shape of a stored covariance. -/
structure Shape (A : Autocov F) : Prop where
  wf : A.PT.WF
  square : A.PT.ncols = A.PT.nrows
  cols : ∀ i < A.PT.nrows, ∀ e ∈ A.PTcsc.row i, e.1 < A.PT.nrows

/-- A move made by a visit: the node leaves its cluster for another one that contains a
neighbour, and the value added to `delta_r_loop` is the sum of the two computed parts of the
gain. -/
def Moved (A : Autocov F) (it : Finset Int → List Int) (lst : Finset Nat → List Nat)
    (p : Part) (v : Nat) (g : F) (p' : Part) : Prop :=
  ∃ (ci cf : Nat) (rOut rIn : F) (cs : Finset Int), p.dict v = some (ci : Int) ∧ ci ≠ cf ∧
    cf < p.clusters.length ∧ At p.clusters ci v ∧
    deltaOut ar A lst p v ci = .ok rOut ∧ deltaTo ar A lst p v cf = .ok rIn ∧
    g = ar.add rOut rIn ∧ p' = (moveNode p v cf).2 ∧
    scan ar A lst p v ci rOut (it cs) ar.zero ci = .ok (g, (cf : Int)) ∧
    ∃ w ∈ sneighs A v, At p.clusters cf w

theorem visit_any {A : Autocov F} (hA : Shape A) {p : Part} (h : Consistent p)
    (hn : p.numNodes = A.PT.nrows)
    (it : Finset Int → List Int) (hit : ∀ s x, x ∈ it s ↔ x ∈ s) (lst : Finset Nat → List Nat)
    {v : Nat} (hv : v < A.PT.nrows) :
    (visit ar A it lst p v = .error .read ∧ fReadDiag A.PT v = .error .read) ∨
    ∃ o p', visit ar A it lst p v = .ok (o, p') ∧ Consistent p' ∧
      p'.numNodes = p.numNodes ∧
      ((o = none ∧ p' = p) ∨ ∃ g, o = some g ∧ Moved ar A it lst p v g p') := by
  obtain ⟨ci, hd, hat⟩ := h.dict_some (v := v) (by omega)
  rcases fReadDiag_cases A.PT v with hread | ⟨o, ho⟩
  · left
    refine ⟨?_, hread⟩
    have : deltaOut ar A lst p v ci = .error .read := by
      unfold deltaOut
      rw [getCluster_nat (at_lt hat)]
      simp only [at_getD.2 hat, not_true_eq_false, if_false]
      exact (fDeltaOut_of ar A v _).1 _ hread
    unfold visit
    simp only [hd, this]
  right
  have hnb : ∀ u ∈ sneighs A v, u < p.numNodes := by
    intro u hu
    unfold sneighs at hu
    rw [List.mem_toFinset, List.mem_append, List.mem_map, List.mem_map] at hu
    rw [hn]
    rcases hu with ⟨e, he, rfl⟩ | ⟨e, he, rfl⟩
    · rw [← hA.square]
      exact hA.wf.row_lt v e he
    · exact hA.cols v hv e he
  obtain ⟨cs, hcs, hmem⟩ := potential_ok h hnb hd
  obtain ⟨rOut, hrOut⟩ : ∃ r, deltaOut ar A lst p v ci = .ok r := by
    unfold deltaOut
    rw [getCluster_nat (at_lt hat)]
    simp only [at_getD.2 hat, not_true_eq_false, if_false]
    exact (fDeltaOut_of ar A v _).2 _ ho
  have hvalid : ∀ x, x ∈ cs → ∃ cf : Nat, x = cf ∧ cf < p.clusters.length ∧ ci ≠ cf ∧
      ∃ u ∈ sneighs A v, At p.clusters cf u := by
    intro x hx
    obtain ⟨hne, u, hu, hdu⟩ := (hmem x).1 hx
    obtain ⟨k, rfl, hk⟩ := (h.2 u x).1 hdu
    exact ⟨k, rfl, at_lt hk, fun he => hne (by rw [he]), u, hu, hk⟩
  have hto : ∀ cf : Nat, cf < p.clusters.length → ci ≠ cf →
      ∃ r, deltaTo ar A lst p v cf = .ok r := by
    intro cf hcf hne
    have hnotin : v ∉ p.clusters.getD cf ∅ := fun hf => hne (h.1.disj v ci cf hat (at_getD.1 hf))
    unfold deltaTo
    rw [getCluster_nat hcf]
    simp only [hnotin, if_false]
    exact (fDeltaTo_of ar A v _).2 _ ho
  obtain ⟨best, c, hscan, hcase⟩ := scan_any ar A lst (p := p) (v := v) (ci := (ci : Int))
    (rOut := rOut) (it cs) (by
      intro x hx _
      obtain ⟨cf, rfl, hcf, hne, _⟩ := hvalid x ((hit cs x).1 hx)
      exact hto cf hcf hne) ar.zero ci (Or.inl rfl)
  by_cases hc : c = ci
  · refine ⟨none, p, ?_, h, rfl, Or.inl ⟨rfl, rfl⟩⟩
    unfold visit
    simp only [hd, hrOut, hcs, hscan, hc, ne_eq, not_true_eq_false, if_false]
  · obtain ⟨hcin, r, hr, hb⟩ := hcase.resolve_left hc
    have hcin' : c ∈ cs := (hit _ _).1 (hcin.resolve_left hc)
    obtain ⟨cf, rfl, hcf, hne, hnear⟩ := hvalid c hcin'
    have hmv := moveNode_ok h hd hcf hne
    have hcons := consistent_move (v := v) h (cf := (cf : Int)) (by omega) (by omega)
    refine ⟨some best, (moveNode p v cf).2, ?_, hcons, (moveNode_numNodes ..).1,
      Or.inr ⟨best, rfl, ci, cf, rOut, r, cs, hd, hne, hcf, hat, hrOut, hr, hb, rfl, hscan, hnear⟩⟩
    unfold visit
    simp only [hd, hrOut, hcs, hscan, ne_eq, hc, not_false_eq_true, if_true]
    rw [hmv]

variable {K : Type} [Field K] [LinearOrder K] [IsStrictOrderedRing K]

/-- A pass over the nodes, with a bound on what each move costs. -/
theorem sweep_any {A : Autocov F} (hA : Shape A) (it : Nat → Finset Int → List Int)
    (hit : ∀ v s x, x ∈ it v s ↔ x ∈ s) (lst : Nat → Finset Nat → List Nat)
    (φ : Part → K) (ε : K) (h0 : 0 ≤ ε)
    (hφ : ∀ p, Consistent p → p.numNodes = A.PT.nrows → ∀ v < A.PT.nrows, ∀ g p',
      Moved ar A (it v) (lst v) p v g p' → φ p - ε ≤ φ p') (l : List Nat) (d : F) {p : Part}
    (h : Consistent p) (hn : p.numNodes = A.PT.nrows) (hl : ∀ v ∈ l, v < A.PT.nrows) :
    (sweep ar A it lst l d p = .error .read ∧ ∃ v ∈ l, fReadDiag A.PT v = .error .read) ∨
    ∃ d' p', sweep ar A it lst l d p = .ok (d', p') ∧ Consistent p' ∧
      p'.numNodes = A.PT.nrows ∧ φ p - l.length * ε ≤ φ p' := by
  induction l generalizing d p with
  | nil => exact Or.inr ⟨d, p, rfl, h, hn, by simp⟩
  | cons v l ih =>
    have hl' : ∀ u ∈ l, u < A.PT.nrows := fun u hu => hl u (by simp [hu])
    rcases visit_any ar hA h hn (it v) (hit v) (lst v) (hl v (by simp)) with
      ⟨e, e'⟩ | ⟨o, p1, h1, h2, h3, h4⟩
    · refine Or.inl ⟨?_, v, by simp, e'⟩
      simp only [sweep, e]
    rcases h4 with ⟨rfl, rfl⟩ | ⟨g, rfl, hm⟩
    · rcases ih d h2 hn hl' with ⟨e, u, hu, e'⟩ | ⟨d', p2, h6, h7, h8, h9⟩
      · refine Or.inl ⟨?_, u, by simp [hu], e'⟩
        simp only [sweep, h1]
        exact e
      refine Or.inr ⟨d', p2, ?_, h7, h8, ?_⟩
      · simp only [sweep, h1]
        exact h6
      · push_cast [List.length_cons]
        nlinarith
    · rcases ih (ar.add d g) h2 (h3.trans hn) hl' with ⟨e, u, hu, e'⟩ | ⟨d', p2, h6, h7, h8, h9⟩
      · refine Or.inl ⟨?_, u, by simp [hu], e'⟩
        simp only [sweep, h1]
        exact e
      refine Or.inr ⟨d', p2, ?_, h7, h8, ?_⟩
      · simp only [sweep, h1]
        exact h6
      · have := hφ p h hn v (hl v (by simp)) g p1 hm
        push_cast [List.length_cons]
        nlinarith

/-- A pass that visits a node without readable diagonal fails. -/
theorem sweep_read {A : Autocov F} (hA : Shape A) (it : Nat → Finset Int → List Int)
    (hit : ∀ v s x, x ∈ it v s ↔ x ∈ s) (lst : Nat → Finset Nat → List Nat)
    (l : List Nat) (d : F) {p : Part}
    (h : Consistent p) (hn : p.numNodes = A.PT.nrows) (hl : ∀ v ∈ l, v < A.PT.nrows) {z : Nat}
    (hz : z ∈ l) (hr : fReadDiag A.PT z = .error .read) :
    sweep ar A it lst l d p = .error .read := by
  induction l generalizing d p with
  | nil => simp at hz
  | cons v l ih =>
    have hl' : ∀ u ∈ l, u < A.PT.nrows := fun u hu => hl u (by simp [hu])
    rcases visit_any ar hA h hn (it v) (hit v) (lst v) (hl v (by simp)) with
      ⟨e, e'⟩ | ⟨o, p1, h1, h2, h3, h4⟩
    · simp only [sweep, e]
    · have hzl : z ∈ l := by
        rcases List.mem_cons.1 hz with rfl | hzl
        · exfalso
          obtain ⟨ci, hd, hat⟩ := h.dict_some (v := z) (by have := hl z (by simp); omega)
          have : deltaOut ar A (lst z) p z ci = .error .read := by
            unfold deltaOut
            rw [getCluster_nat (at_lt hat)]
            simp only [at_getD.2 hat, not_true_eq_false, if_false]
            exact (fDeltaOut_of ar A z _).1 _ hr
          unfold visit at h1
          simp only [hd, this] at h1
          simp at h1
        · exact hzl
      cases o with
      | none =>
        simp only [sweep, h1]
        exact ih d h2 (h3.trans hn) hl' hzl
      | some g =>
        simp only [sweep, h1]
        exact ih (ar.add d g) h2 (h3.trans hn) hl' hzl

/-- A node-moving phase, with a bound on what each move costs. -/
theorem moveLoop_any (sc : FSched) (m : Nat) (thr : F) (nSub : Nat) {A : Autocov F} (hA : Shape A)
    (φ : Part → K) (ε : K) (h0 : 0 ≤ ε)
    (hφ : ∀ p, Consistent p → p.numNodes = A.PT.nrows → ∀ k, ∀ v < A.PT.nrows, ∀ g p',
      Moved ar A (sc.listing m k v) (sc.nodes m k v) p v g p' → φ p - ε ≤ φ p')
    (hr : ∀ p, φ (removeEmpty p) = φ p)
    (steps nLoop : Nat) (dLoop dTot : F) {p : Part} (h : Consistent p) (hn : p.numNodes = A.PT.nrows)
    (hs : nSub - nLoop < steps) :
    (moveLoop ar sc m thr nSub A steps nLoop dLoop dTot p = .error .read ∧ ¬ LastStored A) ∨
    ∃ d k p', moveLoop ar sc m thr nSub A steps nLoop dLoop dTot p = .ok (d, k, p') ∧
      Consistent p' ∧ p'.numNodes = A.PT.nrows ∧ (∀ c ∈ p'.clusters, c.Nonempty) ∧
      k ≤ max nLoop nSub ∧ φ p - ((nSub - nLoop : Nat) * A.PT.nrows : K) * ε ≤ φ p' := by
  induction steps generalizing nLoop dLoop dTot p with
  | zero => omega
  | succ steps ih =>
    simp only [moveLoop]
    by_cases hc : ar.lt thr dLoop = true ∧ nLoop < nSub
    · rw [if_pos hc]
      rcases sweep_any ar hA (sc.listing m nLoop)
        (fun v s x => sc.mem_listing m nLoop v s x) (sc.nodes m nLoop) φ ε h0
        (fun p hp hpn v hv g p' hm => hφ p hp hpn nLoop v hv g p' hm)
        (sc.order m nLoop A.PT.nrows) ar.zero h hn (by
          intro v hv
          exact List.mem_range.1 ((sc.order_perm m nLoop A.PT.nrows).mem_iff.1 hv)) with
        ⟨e, u, hu, e'⟩ | ⟨d, p1, h1, h2, h3, h4⟩
      · left
        rw [e]
        refine ⟨rfl, fun hlast => ?_⟩
        have hu' := List.mem_range.1 ((sc.order_perm m nLoop A.PT.nrows).mem_iff.1 hu)
        obtain ⟨o, ho⟩ := fReadDiag_ok hA.wf hlast hu'
        rw [ho] at e'
        simp at e'
      rw [h1]
      simp only
      rcases ih (nLoop + 1) d (ar.add dTot d) h2 h3 (by omega) with
        e | ⟨d', k, p2, h6, h7, h8, h9, h10, h11⟩
      · exact Or.inl e
      refine Or.inr ⟨d', k, p2, h6, h7, h8, h9, by omega, ?_⟩
      have hlen : (sc.order m nLoop A.PT.nrows).length = A.PT.nrows := by
        rw [(sc.order_perm m nLoop A.PT.nrows).length_eq, List.length_range]
      rw [hlen] at h4
      have he : ((nSub - nLoop : Nat) : K) = ((nSub - (nLoop + 1) : Nat) : K) + 1 := by
        have : nSub - nLoop = (nSub - (nLoop + 1)) + 1 := by omega
        rw [this]
        push_cast
        ring
      rw [he]
      linarith
    · rw [if_neg hc]
      refine Or.inr ⟨dTot, nLoop, removeEmpty p, rfl, consistent_removeEmpty h.1, hn,
        (removeEmpty_effect p).2, by omega, ?_⟩
      rw [hr]
      have : (0 : K) ≤ ((nSub - nLoop : Nat) * A.PT.nrows : K) * ε := by positivity
      linarith

/-- A phase that begins on an object without stored numbers in the last row fails. -/
theorem moveLoop_read (sc : FSched) (m : Nat) (thr : F) (nSub : Nat) {A : Autocov F} (hA : Shape A)
    (hpos : 0 < A.PT.nrows) (hlast : ¬ LastStored A) (steps nLoop : Nat) (dLoop dTot : F) {p : Part}
    (h : Consistent p) (hn : p.numNodes = A.PT.nrows) (hc : ar.lt thr dLoop = true ∧ nLoop < nSub) :
    moveLoop ar sc m thr nSub A (steps + 1) nLoop dLoop dTot p = .error .read := by
  simp only [moveLoop]
  rw [if_pos hc, sweep_read ar hA (sc.listing m nLoop)
    (fun v s x => sc.mem_listing m nLoop v s x) (sc.nodes m nLoop) (sc.order m nLoop A.PT.nrows) ar.zero
    h hn (by
      intro v hv
      exact List.mem_range.1 ((sc.order_perm m nLoop A.PT.nrows).mem_iff.1 hv))
    (z := A.PT.nrows - 1) ((sc.order_perm m nLoop A.PT.nrows).mem_iff.2
      (List.mem_range.2 (by omega)))
    (fReadDiag_last hA.wf hpos (not_not.1 hlast))]

/-! ### The constructors -/

theorem shape_mk {PT : Csr F} (h : PT.WF) (hsq : PT.ncols = PT.nrows) (w : Weights F) (sym : Bool) :
    Shape (mkAutocov PT w sym) ∧ (mkAutocov PT w sym).PT.nrows = PT.nrows := by
  have h1 : (mkAutocov PT w sym).PT = sortIndices PT := rfl
  refine ⟨⟨?_, ?_, ?_⟩, ?_⟩
  · rw [h1]
    exact wf_sortIndices h
  · rw [h1, ncols_sortIndices, nrows_sortIndices, hsq]
  · intro i hi e he
    rw [h1, nrows_sortIndices] at hi ⊢
    unfold mkAutocov at he
    cases sym with
    | true =>
      simp only [if_true] at he
      have := (wf_sortIndices h).row_lt i e he
      rw [ncols_sortIndices] at this
      omega
    | false =>
      simp only [Bool.false_eq_true, if_false] at he
      have := (wf_transpose (sortIndices PT)).row_lt i e he
      rw [ncols_transpose, nrows_sortIndices] at this
      exact this
  · rw [h1, nrows_sortIndices]

theorem row_mk_nonempty {PT : Csr F} (h : PT.WF) (w : Weights F) (sym : Bool) {i : Nat}
    (hi : i < PT.nrows) : (mkAutocov PT w sym).PT.row i ≠ [] ↔ PT.row i ≠ [] := by
  have h1 : (mkAutocov PT w sym).PT = sortIndices PT := rfl
  rw [h1, row_sortIndices _ _ hi]
  have hp := perm_sortRow PT.ncols (PT.row i) (h.row_lt i)
  constructor
  · intro hne he
    rw [he] at hp
    exact hne (by rw [he]; exact List.perm_nil.1 hp)
  · intro hne he
    rw [he] at hp
    exact hne (List.nil_perm.1 hp)

theorem mkS_none (A : Autocov F) : ∃ q, mkS A .none = .ok ⟨A, q⟩ ∧ Consistent q ∧
    q.numNodes = A.PT.nrows ∧ q.clusters = singletons A.PT.nrows := by
  unfold mkS
  obtain ⟨q, hq, h1, h2, h3⟩ := mk'_none A.PT.nrows false
  rw [hq]
  exact ⟨q, rfl, h1, h2, h3⟩

/-! ### Aggregation -/

theorem wf_fAggregatePT (M : Csr F) (groups : List (List Nat)) :
    (fAggregatePT ar M groups).WF ∧ (fAggregatePT ar M groups).nrows = groups.length ∧
      (fAggregatePT ar M groups).ncols = groups.length := by
  unfold fAggregatePT
  split
  · refine ⟨?_, by simp [fAggregate1], rfl⟩
    apply wf_ofRows
    intro r hr e he
    rw [List.mem_map] at hr
    obtain ⟨a, _, rfl⟩ := hr
    rw [List.mem_filterMap] at he
    obtain ⟨b, hb, h⟩ := he
    split at h
    · cases h
      exact List.mem_range.1 hb
    · cases h
  · refine ⟨?_, by simp [fAggregate2], rfl⟩
    apply wf_ofRows
    intro r hr e he
    rw [List.mem_map] at hr
    obtain ⟨a, _, rfl⟩ := hr
    unfold merged at he
    rw [List.mem_filterMap] at he
    obtain ⟨b, hb, h⟩ := he
    split at h
    · cases h
      exact List.mem_range.1 hb
    · cases h

theorem shape_fAggregate (A : Autocov F) (groups : List (List Nat)) :
    Shape (fAggregate ar A groups) ∧ (fAggregate ar A groups).PT.nrows = groups.length := by
  obtain ⟨h1, h2, h3⟩ := wf_fAggregatePT ar A.PT groups
  unfold fAggregate
  have := shape_mk h1 (h3.trans h2.symm)
  exact ⟨(this _ _).1, (this _ _).2.trans h2⟩

/-- The clusters of a valid partition, each listed in any order, are a grouping of the nodes. -/
theorem isGrouping_lists {n : Nat} {cl : List (Finset Nat)} (h : IsPartition n cl)
    (lst : Finset Nat → List Nat) (hnd : ∀ c, (lst c).Nodup) (hmem : ∀ c x, x ∈ lst c ↔ x ∈ c) :
    IsGrouping n (cl.map lst) := by
  unfold IsGrouping
  rw [List.perm_ext_iff_of_nodup _ List.nodup_range]
  · intro v
    rw [List.mem_range, List.mem_flatten]
    constructor
    · rintro ⟨l, hl, hv⟩
      rw [List.mem_map] at hl
      obtain ⟨c, hc, rfl⟩ := hl
      obtain ⟨i, hi⟩ := List.mem_iff_getElem?.1 hc
      exact at_lt_n h ⟨c, hi, (hmem c v).1 hv⟩
    · intro hv
      obtain ⟨i, ⟨c, hc, hvc⟩, _⟩ := (h v).1 hv
      exact ⟨lst c, List.mem_map.2 ⟨c, List.mem_of_getElem? hc, rfl⟩, (hmem c v).2 hvc⟩
  · rw [List.nodup_flatten]
    constructor
    · intro l hl
      rw [List.mem_map] at hl
      obtain ⟨c, _, rfl⟩ := hl
      exact hnd c
    · rw [List.pairwise_map, List.pairwise_iff_getElem]
      intro i j hi hj hij v hv1 hv2
      rw [hmem] at hv1 hv2
      have a1 : At cl i v := ⟨_, List.getElem?_eq_getElem hi, hv1⟩
      have a2 : At cl j v := ⟨_, List.getElem?_eq_getElem hj, hv2⟩
      have hvn := at_lt_n h a1
      obtain ⟨k, _, hk⟩ := (h v).1 hvn
      have := hk i a1
      have := hk j a2
      omega

theorem addIn_pos (hp : PosAdd ar) (r : List (Nat × F)) (hr : ∀ e ∈ r, ar.lt ar.zero e.2 = true)
    (idx : List Nat) (s : F) (hs : s = ar.zero ∨ ar.lt ar.zero s = true) :
    (addIn ar r idx s = ar.zero ∨ ar.lt ar.zero (addIn ar r idx s) = true) ∧
    ((ar.lt ar.zero s = true ∨ ∃ e ∈ r, e.1 ∈ idx) → ar.lt ar.zero (addIn ar r idx s) = true) := by
  unfold addIn
  induction r generalizing s with
  | nil => exact ⟨hs, fun h => by simpa using h⟩
  | cons e r ih =>
    have hr' : ∀ f ∈ r, ar.lt ar.zero f.2 = true := fun f hf => hr f (by simp [hf])
    rw [List.foldl_cons]
    by_cases he : e.1 ∈ idx
    · rw [if_pos he]
      have hpos : ar.lt ar.zero (ar.add s e.2) = true := by
        rcases hs with rfl | hs
        · exact hp.zero_add _ (hr e (by simp))
        · exact hp.add _ _ hs (hr e (by simp))
      exact ⟨(ih hr' _ (Or.inr hpos)).1, fun _ => (ih hr' _ (Or.inr hpos)).2 (Or.inl hpos)⟩
    · rw [if_neg he]
      refine ⟨(ih hr' s hs).1, fun h => (ih hr' s hs).2 ?_⟩
      rcases h with h | ⟨f, hf, hfi⟩
      · exact Or.inl h
      · rcases List.mem_cons.1 hf with rfl | hf
        · exact absurd hfi he
        · exact Or.inr ⟨f, hf, hfi⟩

theorem fSubmat_pos (hp : PosAdd ar) (M : Csr F) (rows cols : List Nat)
    (hr : ∀ i ∈ rows, ∀ e ∈ M.row i, ar.lt ar.zero e.2 = true)
    (hex : ∃ i ∈ rows, ∃ e ∈ M.row i, e.1 ∈ cols) : ar.lt ar.zero (fSubmat ar M rows cols) = true := by
  unfold fSubmat
  have key : ∀ s, (s = ar.zero ∨ ar.lt ar.zero s = true) →
      ((ar.lt ar.zero s = true) ∨ ∃ i ∈ rows, ∃ e ∈ M.row i, e.1 ∈ cols) →
      ar.lt ar.zero (rows.foldl (fun s row => addIn ar (M.row row) cols s) s) = true := by
    clear hex
    induction rows with
    | nil =>
      intro s _ h
      simpa using h
    | cons i rows ih =>
      intro s hs h
      rw [List.foldl_cons]
      have h1 := addIn_pos ar hp (M.row i) (hr i (by simp)) cols s hs
      apply ih (fun j hj => hr j (by simp [hj])) _ h1.1
      rcases h with h | ⟨j, hj, e, he, hc⟩
      · exact Or.inl (h1.2 (Or.inl h))
      · rcases List.mem_cons.1 hj with rfl | hj
        · exact Or.inl (h1.2 (Or.inr ⟨e, he, hc⟩))
        · exact Or.inr ⟨j, hj, e, he, hc⟩
  exact key _ (Or.inl rfl) (Or.inr hex)

/-- Positive numbers in every row leave a positive number in every row of the aggregate. -/
theorem aggregate_stored (hp : PosAdd ar) {A : Autocov F} (hA : Shape A) (hs : StoredPositive ar A)
    {groups : List (List Nat)} (hg : IsGrouping A.PT.nrows groups) (hne : ∀ g ∈ groups, g ≠ [])
    (hpos : 0 < groups.length) : LastStored (fAggregate ar A groups) := by
  unfold LastStored
  rw [(shape_fAggregate ar A groups).2]
  obtain ⟨hw, hr, _⟩ := wf_fAggregatePT ar A.PT groups
  unfold fAggregate
  rw [row_mk_nonempty hw _ _ (by omega)]
  obtain ⟨i, hi⟩ : ∃ i, i ∈ groups.getD (groups.length - 1) [] := by
    have hlt : groups.length - 1 < groups.length := by omega
    rw [List.getD_eq_getElem?_getD, List.getElem?_eq_getElem hlt, Option.getD_some]
    exact List.exists_mem_of_ne_nil _ (hne _ (List.getElem_mem hlt))
  have hin := group_lt hg (groups.length - 1) i (by omega) hi
  obtain ⟨hrow, _⟩ := hs i hin
  obtain ⟨e, he⟩ := List.exists_mem_of_ne_nil _ hrow
  have hecol : e.1 < A.PT.nrows := by
    rw [← hA.square]
    exact hA.wf.row_lt i e he
  obtain ⟨b, hb, heb⟩ := exists_group hg e.1 hecol
  unfold fAggregatePT
  split
  · unfold fAggregate1
    rw [row_ofRows_map _ _ _ _ (by omega)]
    have hpos : ar.lt ar.zero (fSubmat ar A.PT (groups.getD (groups.length - 1) [])
        (groups.getD b [])) = true := by
      apply fSubmat_pos ar hp
      · intro j hj
        exact (hs j (group_lt hg _ j (by omega) hj)).2
      · exact ⟨i, hi, e, he, heb⟩
    apply List.ne_nil_of_mem (a := (b, _))
    rw [List.mem_filterMap]
    exact ⟨b, List.mem_range.2 hb, by rw [if_pos hpos]⟩
  · unfold fAggregate2
    rw [row_ofRows_map _ _ _ _ (by omega)]
    unfold merged
    apply List.ne_nil_of_mem (a := (b, _))
    rw [List.mem_filterMap]
    refine ⟨b, List.mem_range.2 hb, ?_⟩
    rw [if_pos]
    rw [List.any_eq_true]
    refine ⟨(groupOf groups e.1, e.2), ?_, ?_⟩
    · rw [List.mem_flatMap]
      refine ⟨i, ?_, List.mem_map.2 ⟨e, he, rfl⟩⟩
      rw [List.mem_filter]
      refine ⟨List.mem_range.2 hin, ?_⟩
      rw [groupOf_spec hg _ i (by omega) hi]
      simp
    · simp only
      rw [groupOf_spec hg b e.1 hb heb]
      simp

theorem aggregate_any (lst : Finset Nat → List Nat) {A : Autocov F} (hA : Shape A) (p : Part) :
    ∃ mc, aggregate ar lst A p = .ok mc ∧ Shape mc.A ∧ mc.A.PT.nrows = p.clusters.length ∧
      Consistent mc.part ∧ mc.part.numNodes = p.clusters.length ∧
      mc.part.clusters = singletons p.clusters.length ∧
      (mc.A = A ∨ mc.A = fAggregate ar A (p.clusters.map lst)) := by
  unfold aggregate
  split
  · rename_i he
    obtain ⟨q, hq, h1, h2, h3⟩ := mkS_none A
    exact ⟨_, hq, hA, he.symm, h1, by rw [he]; exact h2, by rw [he]; exact h3, Or.inl rfl⟩
  · obtain ⟨q, hq, h1, h2, h3⟩ := mkS_none (fAggregate ar A (p.clusters.map lst))
    obtain ⟨h4, h5⟩ := shape_fAggregate ar A (p.clusters.map lst)
    rw [List.length_map] at h5
    rw [h5] at h2 h3
    exact ⟨_, hq, h4, h5, h1, h2, h3, Or.inr rfl⟩

/-- The meta loop in any arithmetic: a valid partition or the read outside the arrays; the
latter not if the last row of every object the loop works on stores something. -/
theorem metaLoop_any (sc : FSched) (par : Params F) {A : Autocov F} (hA : Shape A) (R : Prop)
    (hR : R → LastStored A)
    (hagg : R → ∀ p, Consistent p → p.numNodes = A.PT.nrows → (∀ c ∈ p.clusters, c.Nonempty) → ∀ k,
      LastStored (fAggregate ar A (p.clusters.map (sc.block k))))
    (steps k0 : Nat) (delta : F) (stop : Bool) (self : Part) (mc : SClu F) (hself : Consistent self)
    (hn : self.numNodes = A.PT.nrows)
    (hpos : 0 < self.numNodes) (hne : ∀ c ∈ self.clusters, c.Nonempty)
    (hinv : stop = true ∨ (Shape mc.A ∧ Consistent mc.part ∧ mc.part.numNodes = mc.A.PT.nrows ∧
      self.clusters.length ≤ mc.A.PT.nrows ∧ (R → LastStored mc.A)))
    (hk : k0 ≤ par.nMeta + 1) (hs : par.nMeta + 1 - k0 < steps) :
    (metaLoop ar sc par A steps k0 delta stop self mc = .error .read ∧ ¬ R) ∨
    ∃ k p, metaLoop ar sc par A steps k0 delta stop self mc = .ok (k, p) ∧
      Consistent p ∧ p.numNodes = self.numNodes ∧ (∀ c ∈ p.clusters, c.Nonempty) ∧
      k ≤ par.nMeta + 1 := by
  induction steps generalizing k0 delta stop self mc with
  | zero => omega
  | succ steps ih =>
    simp only [metaLoop]
    split
    · exact Or.inr ⟨k0, self, rfl, hself, rfl, hne, hk⟩
    · rename_i hcond
      have hstop : stop ≠ true := fun h => hcond (Or.inr (Or.inl h))
      have hk0 : ¬ par.nMeta < k0 := fun h => hcond (Or.inr (Or.inr h))
      obtain ⟨hmA, hmc, hmn, hlen, hmR⟩ := hinv.resolve_left hstop
      rcases moveLoop_any (K := ℚ) ar sc (k0 + 1) par.thr
        par.nSub hmA (fun _ => 0) 0 le_rfl (fun _ _ _ _ _ _ _ _ _ => by simp)
        (fun _ => rfl) (par.nSub + 1) 1 ar.one ar.zero hmc hmn (by omega) with
        ⟨e, e'⟩ | ⟨d, kl, p1, h1, h2, h3, h4, _, _⟩
      · have hmove : moveNodes ar sc (k0 + 1) par.thr par.nSub mc (par.nSub + 1) = .error .read := e
        rw [hmove]
        exact Or.inl ⟨rfl, fun h => e' (hmR h)⟩
      have hmove : moveNodes ar sc (k0 + 1) par.thr par.nSub mc (par.nSub + 1)
          = .ok (d, kl, p1) := h1
      rw [hmove]
      simp only
      obtain ⟨self', h7, h8, h9, h10⟩ := updatePart_any hself hne h2 (by omega) hpos
      rw [h7]
      simp only
      split
      · rcases ih (k0 + 1) d true self' _ h8 (h9.trans hn) (by omega) h10 (Or.inl rfl) (by omega)
          (by omega) with e | ⟨k, p, a, b, c, e, f⟩
        · exact Or.inl e
        · exact Or.inr ⟨k, p, a, b, c.trans h9, e, f⟩
      · obtain ⟨mc', e, e1, e2, e3, e4, _, e5⟩ := aggregate_any ar (sc.block (k0 + 1)) hA self'
        rw [e]
        simp only
        rcases ih (k0 + 1) d false self' mc' h8 (h9.trans hn) (by omega) h10
          (Or.inr ⟨e1, e3, by rw [e4, e2], by rw [e2], fun hRR => by
            rcases e5 with e5 | e5
            · rw [e5]
              exact hR hRR
            · rw [e5]
              exact hagg hRR self' h8 (h9.trans hn) h10 _⟩) (by omega) (by omega)
          with e | ⟨k, p, a, b, c, e, f⟩
        · exact Or.inl e
        · exact Or.inr ⟨k, p, a, b, c.trans h9, e, f⟩

end Verif.SparseRound
