import Verif.SparseLouvain.Props

/-!
# The sparse search with an isolated first node
-/

set_option linter.unusedSectionVars false
set_option linter.dupNamespace false

namespace Verif.SparseLouvain

open Verif.Partition Verif.Autocov Verif.Csr
open Verif.Louvain (Sched Params listSet Clu metaLoop rowSum Isolated)

variable {K : Type} [Field K] [LinearOrder K] [IsStrictOrderedRing K]

/-- The stored matrix with a self-loop on node 0. -/
def loopT (A : Autocov K) (i j : Nat) : K := if i = 0 ∧ j = 0 then 1 else A.PT.val i j

theorem dense0_loopT {A : Autocov K} (f : Fit0 A) (iso : Iso A) :
    Dense0 A A.toarray (loopT A) ∧ Isolated (loopT A) A.PT.nrows := by
  have hnn : ∀ i < A.PT.nrows, ∀ j < A.PT.nrows, 0 ≤ loopT A i j := by
    intro i hi j _
    unfold loopT
    split
    · exact zero_le_one
    · exact val_nonneg f.tight i j hi
  refine ⟨⟨fun _ _ _ _ => rfl, hnn, ?_, ?_⟩, ?_⟩
  · intro i hi
    by_cases h0 : i = 0
    · subst h0
      exact Finset.sum_pos' (fun j hj => hnn 0 hi j (Finset.mem_range.1 hj))
        ⟨0, Finset.mem_range.2 hi, by simp [loopT]⟩
    · obtain ⟨j, hj, hp⟩ := row_pos0 f i hi (iso.rows i hi h0)
      exact Finset.sum_pos' (fun j hj => hnn i hi j (Finset.mem_range.1 hj))
        ⟨j, Finset.mem_range.2 hj, by simp [loopT, h0, hp]⟩
  · intro i hi j hj hij
    unfold loopT
    rw [if_neg (by rintro ⟨rfl, rfl⟩; exact hij rfl)]
  · intro v hv hv0
    unfold loopT
    rw [if_neg (by rintro ⟨_, h⟩; exact hv0 h), if_neg (by rintro ⟨h, _⟩; exact hv0 h)]
    exact iso.alone v hv hv0

/-- With an isolated node 0 the search returns, leaves a valid partition that is no worse than
the start, and node 0 is alone in the first cluster. -/
theorem find_isolated (sc : Sched) (par : Params K) (c : SClu K) (f : Fit0 c.A) (iso : Iso c.A)
    (hfresh : Fresh c) (hz : c.A.isAllZeros = false) :
    ∃ k p, sFindLouvain sc par c = .ok (k, p) ∧ Consistent p ∧ p.numNodes = c.A.PT.nrows ∧
      (∀ cl ∈ p.clusters, cl.Nonempty) ∧ sStability c.A c.part ≤ sStability c.A p ∧
      p.clusters[0]? = some {0} := by
  obtain ⟨hd, hI⟩ := dense0_loopT f iso
  obtain ⟨h1, h2, h3⟩ := fresh_part hfresh
  have hne : ∀ cl ∈ c.part.clusters, cl.Nonempty := by
    rw [h3]; exact Verif.Louvain.singletons_nonempty _
  have hlen : c.part.clusters.length = c.A.PT.nrows := by rw [h3]; simp [singletons]
  have hc0 : c.part.clusters[0]? = some {0} := by
    rw [h3]
    unfold singletons
    simp [f.pos]
  obtain ⟨heq, hout⟩ := sMetaLoop_eq f True (Or.inr ⟨trivial, iso⟩) hd (fun _ => hI) sc par
    (par.nMeta + 3) 0 1 false c.part c
    ⟨c.A.PT.nrows, loopT c.A, c.A.toarray, c.part⟩ h1 h2 hne (fun _ => hc0)
    (Or.inr ⟨rel_base f (Or.inr iso) hd, rfl, h1, h2, hlen.symm, fun _ => ⟨hI, hc0⟩⟩)
  obtain ⟨k, p, hkp⟩ := Verif.Louvain.metaLoop_total sc par (loopT c.A) c.A.toarray (par.nMeta + 3)
    0 1 false c.part ⟨c.A.PT.nrows, loopT c.A, c.A.toarray, c.part⟩ h1 (by rw [h2]; exact f.pos) hne
    (Or.inr ⟨h1, h2, hlen.symm⟩) (by rw [h2]; exact hd.rowpos) (by omega)
  obtain ⟨a, b, d, e⟩ := Verif.Louvain.metaLoop_spec sc par (loopT c.A) c.A.toarray (par.nMeta + 3)
    0 1 false c.part ⟨c.A.PT.nrows, loopT c.A, c.A.toarray, c.part⟩ h1 (by rw [h2]; exact f.pos) hne
    (Or.inr ⟨h1, h2, hlen.symm, fun r hr hrc => Verif.Louvain.stability_congr _ _ hrc.1 (by
      intro i hi j hj
      simp only at hr
      rw [h3, Verif.Louvain.aggS_singletons c.A.toarray c.A.PT.nrows i j (by omega) (by omega)]),
      rfl⟩) k p hkp
  refine ⟨k, p, ?_, a, b.trans h2, e, ?_, hout trivial k p hkp⟩
  · unfold sFindLouvain
    rw [hz, mkS_same hfresh]
    simp only [Bool.false_eq_true, if_false]
    rw [heq, hkp]
    rfl
  · rw [sStability_eq, sStability_eq]
    exact d

end Verif.SparseLouvain
