import Verif.Backends.Model
import Verif.SparseLouvain.Props

/-!
# C89: the sparse clustering with either version of the helper routines
-/

namespace Verif.Backends

set_option linter.unusedSectionVars false

open Verif.Partition Verif.Autocov Verif.SparseLouvain Verif.Csr
open Verif.Louvain (Sched Params getCluster potentialNewClusters listSet updatePart
  listSet_nodup mem_listSet)
open Verif.SparseStoch (Backend)

variable {K : Type} [Field K] [LinearOrder K] [IsStrictOrderedRing K]

/-! ## With the compiled routines -/

theorem compiled_deltaTo (A : Autocov K) (p : Part) (k : Nat) (cf : Int) :
    bDeltaTo .compiled A p k cf = noHelper (sDeltaTo A p k cf) := by
  unfold bDeltaTo sDeltaTo
  cases getCluster p cf with
  | error e => rfl
  | ok c =>
    dsimp only
    split
    · rfl
    · cases A.deltaTo k (listSet c) <;> rfl

theorem compiled_deltaOut (A : Autocov K) (p : Part) (k : Nat) (ci : Int) :
    bDeltaOut .compiled A p k ci = noHelper (sDeltaOut A p k ci) := by
  unfold bDeltaOut sDeltaOut
  cases getCluster p ci with
  | error e => rfl
  | ok c =>
    dsimp only
    split
    · rfl
    · cases A.deltaOut k (listSet c) <;> rfl

theorem compiled_scan (A : Autocov K) (p : Part) (node : Nat) (ci : Int) (rOut : K) (l : List Int) :
    ∀ best c, bScan .compiled A p node ci rOut l best c =
      noHelper (sScan A p node ci rOut l best c) := by
  induction l with
  | nil => intro best c; rfl
  | cons cf l ih =>
    intro best c
    simp only [bScan, sScan, compiled_deltaTo]
    split
    · cases sDeltaTo A p node cf with
      | error e => rfl
      | ok r =>
        simp only [noHelper]
        split <;> exact ih _ _
    · exact ih _ _

theorem compiled_visit (A : Autocov K) (it : Finset Int → List Int) (p : Part) (v : Nat) :
    bVisit .compiled A it p v = noHelper (sVisit A it p v) := by
  unfold bVisit sVisit
  cases p.dict v with
  | none => rfl
  | some ci =>
    simp only [compiled_deltaOut]
    cases sDeltaOut A p v ci with
    | error e => rfl
    | ok r =>
      simp only [noHelper]
      cases potentialNewClusters p (sneighs A v) v with
      | error e => rfl
      | ok cs =>
        simp only [compiled_scan]
        cases sScan A p v ci r (it cs) 0 ci with
        | error e => rfl
        | ok bc =>
          obtain ⟨b, c⟩ := bc
          simp only [noHelper]
          split
          · match moveNode p v c with
            | (some e, _) => rfl
            | (none, p') => rfl
          · rfl

theorem compiled_sweep (A : Autocov K) (it : Nat → Finset Int → List Int) (l : List Nat) :
    ∀ d p, bSweep .compiled A it l d p = noHelper (sSweep A it l d p) := by
  induction l with
  | nil => intro d p; rfl
  | cons v l ih =>
    intro d p
    simp only [bSweep, sSweep, compiled_visit]
    cases sVisit A (it v) p v with
    | error e => rfl
    | ok gp =>
      obtain ⟨g, p'⟩ := gp
      exact ih _ _

theorem compiled_moveLoop (sc : Sched) (m : Nat) (thr : K) (nSub : Nat) (A : Autocov K)
    (steps : Nat) : ∀ nLoop dLoop dTot p,
    bMoveLoop .compiled sc m thr nSub A steps nLoop dLoop dTot p =
      noHelper (sMoveLoop sc m thr nSub A steps nLoop dLoop dTot p) := by
  induction steps with
  | zero => intro _ _ _ _; rfl
  | succ steps ih =>
    intro nLoop dLoop dTot p
    simp only [bMoveLoop, sMoveLoop, compiled_sweep]
    split
    · cases sSweep A (sc.listing m nLoop) (sc.order m nLoop A.PT.nrows) 0 p with
      | error e => rfl
      | ok dp =>
        obtain ⟨d, p'⟩ := dp
        exact ih _ _ _ _
    · rfl

theorem compiled_metaLoop (sc : Sched) (par : Params K) (A : Autocov K) (steps : Nat) :
    ∀ k delta stop self mc, bMetaLoop .compiled sc par A steps k delta stop self mc =
      noHelper (sMetaLoop sc par A steps k delta stop self mc) := by
  induction steps with
  | zero => intro _ _ _ _ _; rfl
  | succ steps ih =>
    intro k delta stop self mc
    simp only [bMetaLoop, sMetaLoop, sMoveNodes, compiled_moveLoop]
    split
    · rfl
    · cases sMoveLoop sc (k + 1) par.thr par.nSub mc.A (par.nSub + 1) 1 1 0 mc.part with
      | error e => rfl
      | ok r =>
        obtain ⟨d, nl, mp⟩ := r
        simp only [noHelper]
        cases updatePart self mp with
        | error e => rfl
        | ok self' =>
          simp only
          split
          · exact ih _ _ _ _ _
          · unfold bAggregate sAggregate
            by_cases hlen : self'.clusters.length = A.PT.nrows
            · rw [if_pos hlen, if_pos hlen]
              cases mkS A .none with
              | error e => rfl
              | ok mc' => exact ih _ _ _ _ _
            · rw [if_neg hlen, if_neg hlen]
              dsimp only
              cases mkS (A.aggregate (self'.clusters.map listSet)) .none with
              | error e => rfl
              | ok mc' => exact ih _ _ _ _ _

theorem compiled_clustered (A : Autocov K) (cs : List (Finset Nat)) :
    bClusteredAutocov .compiled A cs =
      .ok (cs.map fun c => if 0 < c.card then A.submatSum (listSet c) (listSet c) else 0) := by
  induction cs with
  | nil => rfl
  | cons c cs ih =>
    have : (if 0 < c.card then bSubmat .compiled A (listSet c) (listSet c) else .ok 0) =
        .ok (if 0 < c.card then A.submatSum (listSet c) (listSet c) else 0) := by
      split <;> rfl
    simp only [bClusteredAutocov, this, ih, List.map_cons]

/-- **C89** (compiled routines).  With the compiled helper routines a sparse clustering is
the one of C69: same stability, same result of the search, same exceptions. -/
theorem C89_compiled (sc : Sched) (par : Params K) (c : SClu K) (A : Autocov K) (p : Part) :
    bStability .compiled A p = .ok (sStability A p) ∧
    bFindLouvain .compiled sc par c =
      (match sFindLouvain sc par c with
        | .ok r => .ok r
        | .error e => .error (.sparse e)) := by
  constructor
  · unfold bStability
    rw [compiled_clustered]
    rfl
  · unfold bFindLouvain sFindLouvain
    split
    · cases mk' c.A.PT.nrows (.clusterList [Finset.range c.A.PT.nrows]) false with
      | error e => rfl
      | ok q => rfl
    · cases mkS c.A (.clusterList c.part.clusters) with
      | error e => rfl
      | ok mc =>
        simp only [compiled_metaLoop]
        cases sMetaLoop sc par c.A (par.nMeta + 3) 0 1 false c.part mc <;> rfl

/-! ## With the replacements -/

theorem python_clustered (A : Autocov K) (cs : List (Finset Nat)) :
    (∀ c ∈ cs, c = ∅) ∨ bClusteredAutocov .python A cs = .error .attribute := by
  induction cs with
  | nil => left; simp
  | cons c cs ih =>
    by_cases hc : c = ∅
    · subst hc
      rcases ih with h | h
      · left
        intro d hd
        rcases List.mem_cons.1 hd with rfl | hd
        · rfl
        · exact h d hd
      · right
        simp [bClusteredAutocov, h]
    · right
      have : 0 < c.card := Finset.card_pos.2 (Finset.nonempty_iff_ne_empty.2 hc)
      simp [bClusteredAutocov, this, bSubmat]

/-- **C89** is violated by the replacements: the stability of a partition of one or more
nodes cannot be computed. -/
theorem C89_stability_violated (A : Autocov K) (p : Part) (h : Consistent p)
    (hpos : 0 < p.numNodes) : bStability .python A p = .error .attribute := by
  unfold bStability
  rcases python_clustered A p.clusters with h0 | h0
  · exfalso
    obtain ⟨i, _, c, hc, hv⟩ := h.dict_some hpos
    have := h0 c (List.mem_of_getElem? hc)
    rw [this] at hv
    exact absurd hv (Finset.notMem_empty _)
  · rw [h0]

/-- Facts on visiting a node of a valid partition. -/
theorem cluster_of {p : Part} (h : Consistent p) {v : Nat} (hv : v < p.numNodes) :
    ∃ (ci : Int) (c : Finset Nat), p.dict v = some ci ∧ getCluster p ci = .ok c ∧ v ∈ c := by
  obtain ⟨k, hk, c, hc, hvc⟩ := h.dict_some hv
  have hlt : k < p.clusters.length := by
    by_contra hge
    rw [List.getElem?_eq_none (by omega)] at hc
    exact nomatch hc
  refine ⟨k, c, hk, ?_, hvc⟩
  rw [Verif.Louvain.getCluster_nat hlt, List.getD_eq_getElem?_getD, hc]
  rfl

theorem python_visit_vectors (A : Autocov K) (it : Finset Int → List Int) {p : Part}
    (h : Consistent p) {v : Nat} (hv : v < p.numNodes) (p1 p2 : Nat → K)
    (hw : A.w = .vectors p1 p2) : bVisit .python A it p v = .error .attribute := by
  obtain ⟨ci, c, h1, h2, h3⟩ := cluster_of h hv
  simp only [bVisit, h1, bDeltaOut, h2, hw, if_neg (not_not.2 h3)]

theorem order_head (sc : Sched) (m k : Nat) {n : Nat} (hn : 0 < n) :
    ∃ v l, sc.order m k n = v :: l ∧ v < n := by
  have hp := sc.order_perm m k n
  cases hl : sc.order m k n with
  | nil =>
    rw [hl] at hp
    have := hp.length_eq
    simp at this
    omega
  | cons v l =>
    refine ⟨v, l, rfl, ?_⟩
    have : v ∈ List.range n := hp.mem_iff.1 (by rw [hl]; exact List.mem_cons_self ..)
    exact List.mem_range.1 this

/-- **C89** is violated by the replacements: with probability vectors, whatever the start
partition, no search gets beyond its first node. -/
theorem C89_vectors_violated (sc : Sched) (par : Params K) (c : SClu K) (p1 p2 : Nat → K)
    (hw : c.A.w = .vectors p1 p2) (hz : c.A.isAllZeros = false) (hpos : 0 < c.A.PT.nrows)
    (h : Consistent c.part) (hn : c.part.numNodes = c.A.PT.nrows)
    (hthr : par.thr < 1) (hsub : 1 < par.nSub) :
    bFindLouvain .python sc par c = .error .attribute := by
  have hmk : mkS c.A (.clusterList c.part.clusters) =
      .ok ⟨c.A, removeEmpty ⟨c.A.PT.nrows, c.part.clusters, dictOf c.part.clusters⟩⟩ := by
    unfold mkS
    rw [Verif.Louvain.mk'_clusterList]
  have hcons : Consistent
      (removeEmpty ⟨c.A.PT.nrows, c.part.clusters, dictOf c.part.clusters⟩) :=
    consistent_removeEmpty (hn ▸ h.1)
  obtain ⟨v, l, hvl, hv⟩ := order_head sc 1 1 hpos
  have hvis := python_visit_vectors c.A (sc.listing 1 1 v) hcons (v := v) hv p1 p2 hw
  have hcond : ¬ ((1 : K) ≤ par.thr ∨ false = true ∨ par.nMeta < 0) := by
    rintro (h | h | h)
    · exact absurd hthr (not_lt.2 h)
    · exact nomatch h
    · omega
  unfold bFindLouvain
  rw [hz, hmk]
  simp only [Bool.false_eq_true, if_false]
  rw [bMetaLoop, if_neg hcond]
  simp only [Nat.zero_add]
  rw [bMoveLoop, if_pos ⟨hthr, hsub⟩, hvl]
  simp only [bSweep, hvis]

/-! ## Two scalars: what happens depends on the stored pattern -/

/-- Some node has a stored value with another node, in its row or in its column. -/
def Linked (A : Autocov K) : Prop :=
  ∃ i < A.PT.nrows, ∃ j, j ≠ i ∧
    (j ∈ (A.PT.row i).map Prod.fst ∨ j ∈ (A.PTcsc.row i).map Prod.fst)

/-- Column numbers of both copies are in range. -/
def InRange (A : Autocov K) : Prop :=
  ∀ i < A.PT.nrows, ∀ e ∈ A.PT.row i ++ A.PTcsc.row i, e.1 < A.PT.nrows

theorem mem_sneighs (A : Autocov K) (i j : Nat) :
    j ∈ sneighs A i ↔ j ∈ (A.PT.row i).map Prod.fst ∨ j ∈ (A.PTcsc.row i).map Prod.fst := by
  unfold sneighs
  rw [List.mem_toFinset, List.mem_append]

/-- One node of the default partition: left alone if it has no neighbour, `AttributeError`
otherwise. -/
theorem python_visit_scalars (A : Autocov K) (it : Finset Int → List Int)
    (hit : ∀ s x, x ∈ it s ↔ x ∈ s) {p : Part} (h : Consistent p)
    (hn : p.numNodes = A.PT.nrows) (hone : p.clusters = singletons A.PT.nrows)
    {v : Nat} (hv : v < A.PT.nrows) (a b : K)
    (hw : A.w = .scalars a b) (hg : Good A) (hr : InRange A) (hne : A.PT.row v ≠ []) :
    ((∀ u ∈ sneighs A v, u = v) → bVisit .python A it p v = .ok (0, p) ∧
      bVisit .compiled A it p v = .ok (0, p)) ∧
    ((∃ u ∈ sneighs A v, u ≠ v) → bVisit .python A it p v = .error .attribute) := by
  obtain ⟨ci, c, h1, h2, h3⟩ := cluster_of h (hn ▸ hv)
  have hlt := getCluster_lt h h2
  rw [hn] at hlt
  have hdo := deltaOut_eq A hg.columns v hv (listSet c) (listSet_nodup c)
    (fun i hi => hlt i ((mem_listSet c i).1 hi)) _ (readDiag_ok hg.wf hg.sorted hg.noRepeats v hv hne)
  have hout : ∀ be : Backend, ∃ r, bDeltaOut be A p v ci = .ok r := by
    intro be
    simp only [bDeltaOut, h2, if_neg (not_not.2 h3), hw, hdo]
    cases be <;> exact ⟨_, rfl⟩
  have hnb : ∀ u ∈ sneighs A v, u < p.numNodes := by
    intro u hu
    rw [hn]
    rw [mem_sneighs] at hu
    rcases hu with hu | hu
    · obtain ⟨e, he, rfl⟩ := List.mem_map.1 hu
      exact hr v hv e (List.mem_append_left _ he)
    · obtain ⟨e, he, rfl⟩ := List.mem_map.1 hu
      exact hr v hv e (List.mem_append_right _ he)
  obtain ⟨cs, hcs, hmem⟩ := Verif.Louvain.potential_ok h hnb h1
  constructor
  · intro hall
    have hempty : ∀ x, x ∉ it cs := by
      intro x hx
      rw [hit, hmem] at hx
      obtain ⟨hx1, u, hu, hux⟩ := hx
      rw [hall u hu, h1] at hux
      exact hx1 (Option.some.inj hux).symm
    have hnil : it cs = [] := List.eq_nil_iff_forall_not_mem.2 hempty
    constructor
    · obtain ⟨r, hr⟩ := hout .python
      simp only [bVisit, h1, hr, hcs, hnil, bScan, ne_eq, not_true, if_false]
    · obtain ⟨r, hr⟩ := hout .compiled
      simp only [bVisit, h1, hr, hcs, hnil, bScan, ne_eq, not_true, if_false]
  · rintro ⟨u, hu, huv⟩
    have hdiff : ∀ x ∈ it cs, x ≠ ci ∧ ∃ w, w < p.numNodes ∧ p.dict w = some x := by
      intro x hx
      rw [hit, hmem] at hx
      obtain ⟨hx1, w, hw', hwx⟩ := hx
      exact ⟨hx1, w, hnb w hw', hwx⟩
    have hne' : it cs ≠ [] := by
      obtain ⟨k, hk, hat⟩ := h.dict_some (hnb u hu)
      have hmemu : (k : Int) ∈ it cs := by
        rw [hit, hmem]
        refine ⟨?_, u, hu, hk⟩
        intro hkci
        obtain ⟨k', hk', hat'⟩ := h.dict_some (v := v) (hn ▸ hv)
        rw [h1] at hk'
        have : k = k' := by
          have := hkci.trans (Option.some.inj hk')
          exact_mod_cast this
        subst this
        have htog : Together p.clusters u v := ⟨k, hat, hat'⟩
        rw [hone, Verif.Louvain.together_singletons] at htog
        exact huv htog.1
      intro hnil
      rw [hnil] at hmemu
      exact absurd hmemu (List.not_mem_nil)
    obtain ⟨r, hr⟩ := hout .python
    cases hl : it cs with
    | nil => exact absurd hl hne'
    | cons x l =>
      obtain ⟨hx1, w, hwlt, hwx⟩ := hdiff x (by rw [hl]; exact List.mem_cons_self ..)
      obtain ⟨cx, d, hd1, hd2, hd3⟩ := cluster_of h hwlt
      rw [hwx] at hd1
      have hcx : cx = x := (Option.some.inj hd1).symm
      subst hcx
      have hvd : v ∉ d := by
        intro hvd
        obtain ⟨k', hk', hat'⟩ := h.dict_some (v := w) hwlt
        rw [hwx] at hk'
        have hxk : cx = (k' : Int) := Option.some.inj hk'
        rw [hxk] at hd2
        have hlt' : k' < p.clusters.length := by
          obtain ⟨_, hc, _⟩ := hat'
          by_contra hge
          rw [List.getElem?_eq_none (by omega)] at hc
          exact nomatch hc
        rw [Verif.Louvain.getCluster_nat hlt'] at hd2
        have hd2' := Except.ok.inj hd2
        have hatv : At p.clusters k' v := Verif.Louvain.at_iff_getD.2 (by rw [hd2']; exact hvd)
        have := (h.2 v k').2 ⟨k', rfl, hatv⟩
        rw [h1] at this
        exact hx1 (hxk.trans (Option.some.inj this).symm)
      have hto : bDeltaTo .python A p v cx = .error .attribute := by
        simp only [bDeltaTo, hd2, if_neg hvd]
      simp only [bVisit, h1, hr, hcs, hl, bScan, if_pos hx1, hto]

/-- What is asked of the stored covariance in the statement on scalars. -/
structure Fine (A : Autocov K) : Prop where
  good : Good A
  range : InRange A
  rows : ∀ i < A.PT.nrows, A.PT.row i ≠ []
  pos : 0 < A.PT.nrows

/-- One pass over some nodes of the default partition. -/
theorem python_sweep (A : Autocov K) (f : Fine A) (a b : K) (hw : A.w = .scalars a b)
    (it : Nat → Finset Int → List Int) (hit : ∀ v s x, x ∈ it v s ↔ x ∈ s) {p : Part}
    (h : Consistent p) (hn : p.numNodes = A.PT.nrows) (hone : p.clusters = singletons A.PT.nrows)
    (l : List Nat) : ∀ d, (∀ v ∈ l, v < A.PT.nrows) →
    ((∀ v ∈ l, ∀ u ∈ sneighs A v, u = v) → bSweep .python A it l d p = .ok (d, p) ∧
      bSweep .compiled A it l d p = .ok (d, p)) ∧
    ((∃ v ∈ l, ∃ u ∈ sneighs A v, u ≠ v) → bSweep .python A it l d p = .error .attribute) := by
  induction l with
  | nil =>
    intro d _
    exact ⟨fun _ => ⟨rfl, rfl⟩, fun ⟨v, hv, _⟩ => absurd hv List.not_mem_nil⟩
  | cons v l ih =>
    intro d hl
    have hv := hl v (List.mem_cons_self ..)
    obtain ⟨h1, h2⟩ := python_visit_scalars A (it v) (hit v) h hn hone hv a b hw f.good f.range
      (f.rows v hv)
    by_cases hc : ∀ u ∈ sneighs A v, u = v
    · obtain ⟨h3, h4⟩ := h1 hc
      obtain ⟨h5, h6⟩ := ih (d + 0) (fun w hw => hl w (List.mem_cons_of_mem _ hw))
      constructor
      · intro hall
        obtain ⟨h7, h8⟩ := h5 (fun w hw => hall w (List.mem_cons_of_mem _ hw))
        rw [add_zero] at h7 h8
        simp only [bSweep, h3, h4, add_zero, h7, h8, and_self]
      · rintro ⟨w, hw, u, hu, huw⟩
        rcases List.mem_cons.1 hw with rfl | hw
        · exact absurd (hc u hu) huw
        · simp only [bSweep, h3]
          exact h6 ⟨w, hw, u, hu, huw⟩
    · have hex : ∃ u ∈ sneighs A v, u ≠ v := by
        by_contra hno
        exact hc fun u hu => by
          by_contra hne
          exact hno ⟨u, hu, hne⟩
      constructor
      · intro hall
        exact absurd (hall v (List.mem_cons_self ..)) hc
      · intro _
        simp only [bSweep, h2 hex]

theorem linked_iff (A : Autocov K) (sc : Sched) (m k : Nat) :
    Linked A ↔ ∃ v ∈ sc.order m k A.PT.nrows, ∃ u ∈ sneighs A v, u ≠ v := by
  have hmem : ∀ v, v ∈ sc.order m k A.PT.nrows ↔ v < A.PT.nrows := fun v =>
    (sc.order_perm m k A.PT.nrows).mem_iff.trans List.mem_range
  constructor
  · rintro ⟨i, hi, j, hji, hj⟩
    exact ⟨i, (hmem i).2 hi, j, (mem_sneighs A i j).2 hj, hji⟩
  · rintro ⟨v, hv, u, hu, huv⟩
    exact ⟨v, (hmem v).1 hv, u, huv, (mem_sneighs A v u).1 hu⟩

/-- The node-moving phase on the default partition. -/
theorem python_moveLoop (sc : Sched) (m : Nat) (thr : K) (nSub : Nat) (A : Autocov K)
    (f : Fine A) (a b : K) (hw : A.w = .scalars a b) {p : Part} (h : Consistent p)
    (hn : p.numNodes = A.PT.nrows) (hone : p.clusters = singletons A.PT.nrows) (steps : Nat) :
    ∀ nLoop dLoop dTot, nSub < steps + nLoop →
    (Linked A → thr < dLoop ∧ nLoop < nSub → 0 < steps →
      bMoveLoop .python sc m thr nSub A steps nLoop dLoop dTot p = .error .attribute) ∧
    (¬ Linked A ∨ ¬ (thr < dLoop ∧ nLoop < nSub) → 0 < steps →
      ∃ k, bMoveLoop .python sc m thr nSub A steps nLoop dLoop dTot p = .ok (dTot, k, p) ∧
        bMoveLoop .compiled sc m thr nSub A steps nLoop dLoop dTot p = .ok (dTot, k, p)) := by
  have hre : removeEmpty p = p := Verif.Louvain.removeEmpty_of_nonempty h
    (by rw [hone]; exact Verif.Louvain.singletons_nonempty _)
  induction steps with
  | zero =>
    intro nLoop dLoop dTot _
    exact ⟨fun _ _ h0 => absurd h0 (lt_irrefl _), fun _ h0 => absurd h0 (lt_irrefl _)⟩
  | succ steps ih =>
    intro nLoop dLoop dTot hst
    have hsw := python_sweep A f a b hw (sc.listing m nLoop) (sc.mem_listing m nLoop) h hn hone
      (sc.order m nLoop A.PT.nrows) 0 (fun v hv => List.mem_range.1
        ((sc.order_perm m nLoop A.PT.nrows).mem_iff.1 hv))
    refine ⟨?_, ?_⟩
    · intro hL hc _
      rw [bMoveLoop, if_pos hc, hsw.2 ((linked_iff A sc m nLoop).1 hL)]
    · intro hor _
      by_cases hc : thr < dLoop ∧ nLoop < nSub
      · have hL : ¬ Linked A := hor.resolve_right (not_not.2 hc)
        have hall : ∀ v ∈ sc.order m nLoop A.PT.nrows, ∀ u ∈ sneighs A v, u = v := by
          intro v hv u hu
          by_contra hne
          exact hL ((linked_iff A sc m nLoop).2 ⟨v, hv, u, hu, hne⟩)
        obtain ⟨h1, h2⟩ := hsw.1 hall
        obtain ⟨k, h3, h4⟩ := (ih (nLoop + 1) 0 (dTot + 0) (by omega)).2 (Or.inl hL) (by omega)
        rw [add_zero] at h3 h4
        refine ⟨k, ?_, ?_⟩
        · rw [bMoveLoop, if_pos hc, h1]
          simp only [add_zero]
          exact h3
        · rw [bMoveLoop, if_pos hc, h2]
          simp only [add_zero]
          exact h4
      · exact ⟨nLoop, by rw [bMoveLoop, if_neg hc, hre], by rw [bMoveLoop, if_neg hc, hre]⟩

/-- The default partition is unchanged by a phase without moves. -/
theorem update_same {p : Part} {n : Nat} (h : Consistent p) (hn : p.numNodes = n) (hpos : 0 < n)
    (hone : p.clusters = singletons n) :
    ∃ p', updatePart p p = .ok p' ∧ ∀ c ∈ p'.clusters, c.card = 1 := by
  have hne : ∀ c ∈ p.clusters, c.Nonempty := by
    rw [hone]; exact Verif.Louvain.singletons_nonempty _
  obtain ⟨p', h1, h2, h3, h4, h5⟩ := Verif.Louvain.updatePart_spec h hne h
    (by rw [hn, hone]; simp [singletons]) (hn ▸ hpos)
  refine ⟨p', h1, ?_⟩
  intro c hc
  obtain ⟨i, hi⟩ := List.mem_iff_getElem?.1 hc
  obtain ⟨v, hv⟩ := h4 c hc
  rw [Finset.card_eq_one]
  refine ⟨v, ?_⟩
  ext u
  rw [Finset.mem_singleton]
  constructor
  · intro hu
    have htog : Together p'.clusters u v := ⟨i, ⟨c, hi, hu⟩, ⟨c, hi, hv⟩⟩
    have hub := Verif.Louvain.at_lt_n h2.1 (⟨c, hi, hu⟩ : At p'.clusters i u)
    have hvb := Verif.Louvain.at_lt_n h2.1 (⟨c, hi, hv⟩ : At p'.clusters i v)
    rw [h3] at hub hvb
    obtain ⟨s, _, hs⟩ := h.dict_some hub
    obtain ⟨t, _, ht⟩ := h.dict_some hvb
    have := (h5 u v s t hs ht).1 htog
    rw [hone, Verif.Louvain.together_singletons] at this
    obtain ⟨rfl, _⟩ := this
    have : Together p.clusters u v := ⟨s, hs, ht⟩
    rw [hone, Verif.Louvain.together_singletons] at this
    exact this.1
  · rintro rfl
    exact hv

/-- **C89** for two scalars, exactly.  Started from the default partition the search with
the replacements raises `AttributeError` when two different nodes share a stored value and
the limits allow a pass over the nodes; otherwise it ends like the search with the compiled
routines. -/
theorem C89_scalars_partial (sc : Sched) (par : Params K) (c : SClu K) (a b : K)
    (hw : c.A.w = .scalars a b) (f : Fine c.A) (hfresh : Fresh c) :
    (c.A.isAllZeros = false ∧ Linked c.A ∧ par.thr < 1 ∧ 1 < par.nSub →
      bFindLouvain .python sc par c = .error .attribute) ∧
    (¬ (c.A.isAllZeros = false ∧ Linked c.A ∧ par.thr < 1 ∧ 1 < par.nSub) →
      (∃ r, bFindLouvain .python sc par c = .ok r) ∧
      bFindLouvain .python sc par c = bFindLouvain .compiled sc par c) := by
  obtain ⟨h1, h2, h3⟩ := fresh_part hfresh
  have hmk := mkS_same hfresh
  have hloop := python_moveLoop sc 1 par.thr par.nSub c.A f a b hw h1 h2 h3 (par.nSub + 1) 1 1 0
    (by omega)
  constructor
  · rintro ⟨hz, hL, hthr, hsub⟩
    have hcond : ¬ ((1 : K) ≤ par.thr ∨ false = true ∨ par.nMeta < 0) := by
      rintro (h | h | h)
      · exact absurd hthr (not_lt.2 h)
      · exact nomatch h
      · omega
    unfold bFindLouvain
    rw [hz, hmk]
    simp only [Bool.false_eq_true, if_false]
    rw [bMetaLoop, if_neg hcond]
    simp only [Nat.zero_add]
    rw [hloop.1 hL ⟨hthr, hsub⟩ (by omega)]
  · intro hno
    unfold bFindLouvain
    cases hz : c.A.isAllZeros with
    | true =>
      simp only [if_true, Verif.Louvain.mk'_clusterList]
      exact ⟨⟨_, rfl⟩, trivial⟩
    | false =>
      rw [hmk]
      simp only [Bool.false_eq_true, if_false]
      by_cases hcond : (1 : K) ≤ par.thr ∨ false = true ∨ par.nMeta < 0
      · rw [bMetaLoop, bMetaLoop, if_pos hcond, if_pos hcond]
        exact ⟨⟨_, rfl⟩, rfl⟩
      · obtain ⟨k, h4, h5⟩ := hloop.2 (by
          by_cases hL : Linked c.A
          · right
            intro hc
            exact hno ⟨hz, hL, hc⟩
          · exact Or.inl hL) (by omega)
        obtain ⟨p', h6, h7⟩ := update_same h1 h2 f.pos h3
        rw [bMetaLoop, bMetaLoop, if_neg hcond, if_neg hcond]
        simp only [Nat.zero_add, h4, h5, h6]
        rw [if_pos (Or.inl h7), if_pos (Or.inl h7)]
        rw [bMetaLoop, bMetaLoop, if_pos (Or.inr (Or.inl rfl)), if_pos (Or.inr (Or.inl rfl))]
        exact ⟨⟨_, rfl⟩, rfl⟩

/-! ## Concrete cases -/

/-- A covariance with two scalars: `from_T_forward` without `p1`, on three nodes. -/
def exB : Autocov ℚ := fromTForward exT none none

/-- Three nodes that stay where they are. -/
def exAlone : Autocov ℚ :=
  fromTForward (ofRows 3 [[(0, 1)], [(1, 1)], [(2, 1)]]) none none

/-- Non-vacuity of `C89_vectors_violated` and `C89_stability_violated`. -/
example : exA.w = .vectors exP (vecMat exP exT) ∧ exA.isAllZeros = false ∧ 0 < exA.PT.nrows ∧
    Verif.Louvain.exPar.thr < 1 ∧ 1 < Verif.Louvain.exPar.nSub ∧
    ∃ c : SClu ℚ, c.A = exA ∧ Consistent c.part ∧ c.part.numNodes = exA.PT.nrows ∧
      0 < c.part.numNodes := by
  obtain ⟨q, hq, _⟩ := Verif.Louvain.mk'_none exA.PT.nrows false
  have hf : Fresh (⟨exA, q⟩ : SClu ℚ) := by
    unfold Fresh mkS
    rw [hq]
  obtain ⟨h1, h2, _⟩ := fresh_part hf
  exact ⟨rfl, by decide +kernel, by decide, by decide +kernel, by decide, ⟨exA, q⟩, rfl, h1, h2,
    h2.symm ▸ (by decide : 0 < exA.PT.nrows)⟩

/-- Non-vacuity of the first part of `C89_scalars_partial`. -/
example : exB.w = .scalars (1 / 3) (1 / 3) ∧ Fine exB ∧ exB.isAllZeros = false ∧ Linked exB ∧
    Verif.Louvain.exPar.thr < 1 ∧ 1 < Verif.Louvain.exPar.nSub ∧ ∃ c, Fresh c ∧ c.A = exB := by
  obtain ⟨q, hq, _⟩ := Verif.Louvain.mk'_none exB.PT.nrows false
  refine ⟨?_, ⟨?_, by unfold InRange; decide +kernel, by decide +kernel, by decide⟩,
    by decide +kernel, ⟨0, by decide, 1, by decide, Or.inl (by decide +kernel)⟩,
    by decide +kernel, by decide, ⟨exB, q⟩, ?_, rfl⟩
  · have h : ((1 : ℚ) / ((3 : ℕ) : ℚ)) = 1 / 3 := by norm_num
    exact congrArg₂ Weights.scalars h h
  · exact good_forward _ (wf_ofRows _ _ (by decide +kernel)) (by decide) _ _
  · unfold Fresh mkS
    rw [hq]

/-- Non-vacuity of the second part: nodes without neighbours. -/
example : exAlone.w = .scalars (1 / 3) (1 / 3) ∧ Fine exAlone ∧ exAlone.isAllZeros = false ∧
    ¬ Linked exAlone ∧ ∃ c, Fresh c ∧ c.A = exAlone := by
  obtain ⟨q, hq, _⟩ := Verif.Louvain.mk'_none exAlone.PT.nrows false
  refine ⟨?_, ⟨?_, by unfold InRange; decide +kernel, by decide +kernel, by decide⟩,
    by decide +kernel, ?_, ⟨exAlone, q⟩, ?_, rfl⟩
  · have h : ((1 : ℚ) / ((3 : ℕ) : ℚ)) = 1 / 3 := by norm_num
    exact congrArg₂ Weights.scalars h h
  · exact good_forward _ (wf_ofRows _ _ (by decide +kernel)) (by decide) _ _
  · rintro ⟨i, hi, j, hji, h⟩
    have key : ∀ i < exAlone.PT.nrows,
        ∀ j ∈ (exAlone.PT.row i).map Prod.fst ++ (exAlone.PTcsc.row i).map Prod.fst, j = i := by
      decide +kernel
    exact hji (key i hi j (List.mem_append.2 h))
  · unfold Fresh mkS
    rw [hq]

end Verif.Backends
