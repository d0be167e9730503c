import Verif.Rounding.Props

/-!
# C100: a covariance of NaNs
-/

set_option linter.unusedSectionVars false

namespace Verif.Rounding

open Verif.Partition Verif.Louvain

/-- Laws of NaN: a sum with NaN is NaN, no number is at most NaN, and a matrix with a NaN is not
negligible (`numpy.max` returns NaN). -/
structure NanLaws {F : Type} (ar : Arith F) (nan : F → Prop) : Prop where
  add : ∀ a b, nan a ∨ nan b → nan (ar.add a b)
  le : ∀ a b, nan b → ar.le a b = false
  negligible : ∀ n l, (∃ r ∈ l, ∃ x ∈ r, nan x) → ar.negligible n l = false

variable {F : Type} {ar : Arith F} {nan : F → Prop} (cy : Bool)

theorem sumOut_nan (h : NanLaws ar nan) (S : Nat → Nat → F) (k : Nat) (hk : nan (S k k)) (ix : List Nat) :
    nan (sumOut ar cy S k ix) := by
  unfold sumOut
  split
  · exact h.add _ _ (Or.inr hk)
  · exact h.add _ _ (Or.inr hk)

theorem scan_nan (h : NanLaws ar nan) (S : Nat → Nat → F) (lst : Finset Nat → List Nat) (p : Part) (v : Nat) (ci : Int)
    {rOut : F} (hr : nan rOut) (l : List Int) (best : F) (c : Int) {b : F} {c' : Int}
    (hs : scan ar cy S lst p v ci rOut l best c = .ok (b, c')) : c' = c := by
  induction l generalizing best c with
  | nil =>
    simp only [scan, Except.ok.injEq, Prod.mk.injEq] at hs
    exact hs.2.symm
  | cons x l ih =>
    simp only [scan] at hs
    split at hs
    · split at hs
      · simp at hs
      · rw [if_neg (by rw [h.le _ _ (h.add _ _ (Or.inl hr))]; simp)] at hs
        exact ih _ _ hs
    · exact ih _ _ hs

theorem visit_nan (h : NanLaws ar nan) (S T : Nat → Nat → F) {p : Part} (hp : Consistent p)
    (it : Finset Int → List Int) (hit : ∀ s x, x ∈ it s ↔ x ∈ s) (lst : Finset Nat → List Nat)
    {v : Nat} (hv : v < p.numNodes) (hS : nan (S v v)) :
    visit ar cy S T p.numNodes it lst p v = .ok (none, p) := by
  obtain ⟨o, p', h1, -, -, h4⟩ := visit_any ar cy S T hp it hit lst hv
  rcases h4 with ⟨rfl, rfl⟩ | ⟨g, rfl, hm⟩
  · exact h1
  · exfalso
    obtain ⟨ci, cf, rOut, rIn, cs, -, hne, -, -, hout, -, -, -, hscan, -⟩ := hm
    have hr : nan rOut := by
      unfold deltaOut at hout
      split at hout
      · simp at hout
      · split at hout
        · simp at hout
        · injection hout with hout
          rw [← hout]
          exact sumOut_nan cy h S v hS _
    have := scan_nan cy h S lst p v ci hr _ _ _ hscan
    exact hne (by exact_mod_cast this.symm)

theorem sweep_nan (h : NanLaws ar nan) (S T : Nat → Nat → F) {p : Part} (hp : Consistent p)
    (it : Nat → Finset Int → List Int) (hit : ∀ v s x, x ∈ it v s ↔ x ∈ s) (lst : Nat → Finset Nat → List Nat)
    (l : List Nat) (hl : ∀ v ∈ l, v < p.numNodes) (hS : ∀ v < p.numNodes, nan (S v v)) (d : F) :
    sweep ar cy S T p.numNodes it lst l d p = .ok (d, p) := by
  induction l with
  | nil => rfl
  | cons v l ih =>
    simp only [sweep, visit_nan cy h S T hp (it v) (hit v) (lst v) (hl v (by simp)) (hS v (hl v (by simp)))]
    exact ih fun u hu => hl u (by simp [hu])

theorem moveLoop_nan (h : NanLaws ar nan) (sc : FSched) (m : Nat) (thr : F) (nSub : Nat) (S T : Nat → Nat → F)
    {p : Part} (hp : Consistent p) (hS : ∀ v < p.numNodes, nan (S v v)) (steps nLoop : Nat) (dLoop dTot : F)
    (hs : nSub - nLoop < steps) :
    ∃ d k, moveLoop ar cy sc m thr nSub S T p.numNodes steps nLoop dLoop dTot p = .ok (d, k, removeEmpty p) := by
  induction steps generalizing nLoop dLoop dTot with
  | zero => omega
  | succ steps ih =>
    simp only [moveLoop]
    split
    · rename_i hc
      rw [sweep_nan cy h S T hp _ (fun v s x => sc.mem_listing m nLoop v s x) _ _
        (fun v hv => List.mem_range.1 ((sc.order_perm m nLoop p.numNodes).mem_iff.1 hv)) hS]
      exact ih _ _ _ (by omega)
    · exact ⟨dTot, nLoop, rfl⟩

/-- **C100.** A covariance whose diagonal is NaN raises nothing: the search ends without a move and
leaves every node alone, whatever the transition matrix, schedule, threshold and limits. -/
theorem C100_nan (h : NanLaws ar nan) (sc : FSched) (par : Params F) (c : Clu F) (hc : FreshDefault ar c)
    (hn : 0 < c.n) (hS : ∀ v < c.n, nan (c.S v v)) :
    ∃ k p, findLouvain ar cy sc par c = .ok (k, p) ∧ Consistent p ∧ p.numNodes = c.n ∧
      ∀ u < c.n, ∀ v < c.n, (Together p.clusters u v ↔ u = v) := by
  obtain ⟨q, hq, q1, q2, q3⟩ := mk'_none c.n false
  have hrows : rowsOk ar c.n c.T := by
    by_contra hcon
    unfold FreshDefault mkClu at hc
    rw [if_neg hcon] at hc
    simp at hc
  have hpart : c.part = q := by
    unfold FreshDefault mkClu at hc
    rw [if_pos hrows, hq] at hc
    injection hc with hc
    rw [← hc]
  have hneq : ∀ cl ∈ q.clusters, cl.Nonempty := by rw [q3]; exact singletons_nonempty _
  have hrem := removeEmpty_of_nonempty q1 hneq
  have htog : ∀ u < c.n, ∀ v < c.n, (Together q.clusters u v ↔ u = v) := by
    intro u hu v _
    rw [q3, together_singletons]
    exact ⟨fun a => a.1, fun a => ⟨a, hu⟩⟩
  unfold findLouvain
  rw [if_neg (by omega), h.negligible _ _ ⟨_, List.mem_map.2 ⟨0, List.mem_range.2 hn, rfl⟩, c.S 0 0,
    List.mem_map.2 ⟨0, List.mem_range.2 hn, rfl⟩, hS 0 hn⟩, if_neg (by simp)]
  unfold mkClu
  rw [if_pos hrows, mk'_clusterList, hpart]
  have hcl : removeEmpty { numNodes := c.n, clusters := q.clusters, dict := dictOf q.clusters } = q := by
    rw [← q2]
    exact hrem
  rw [hcl]
  simp only [metaLoop]
  split
  · exact ⟨0, q, rfl, q1, q2, htog⟩
  · obtain ⟨d, k, hk⟩ := moveLoop_nan cy h sc (0 + 1) par.thr par.nSub c.S c.T q1 (by rw [q2]; exact hS)
      (par.nSub + 1) 1 ar.one ar.zero (by omega)
    rw [q2, hrem] at hk
    have hmove : moveNodes ar cy sc (0 + 1) par.thr par.nSub { n := c.n, T := c.T, S := c.S, part := q } (par.nSub + 1)
        = .ok (d, k, q) := hk
    rw [hmove]
    simp only
    obtain ⟨p', e1, e2, e3, e4, e5⟩ := updatePart_spec q1 hneq q1 (by rw [q2, q3]; simp [singletons]) (by omega)
    rw [e1]
    simp only
    have htog' : ∀ u < c.n, ∀ v < c.n, (Together p'.clusters u v ↔ u = v) := by
      intro u hu v hv
      have a := e5 u v u v (by rw [q3, singletons_at]; exact ⟨hu, rfl⟩) (by rw [q3, singletons_at]; exact ⟨hv, rfl⟩)
      rw [a]
      exact htog u hu v hv
    have hone : ∀ cl ∈ p'.clusters, cl.card = 1 := by
      intro cl hcl
      obtain ⟨v, hv⟩ := e4 cl hcl
      rw [Finset.card_eq_one]
      refine ⟨v, ?_⟩
      obtain ⟨i, hi, rfl⟩ := List.getElem_of_mem hcl
      have hat : ∀ w, w ∈ p'.clusters[i] → At p'.clusters i w := fun w hw => ⟨_, List.getElem?_eq_getElem hi, hw⟩
      ext w
      rw [Finset.mem_singleton]
      constructor
      · intro hw
        have l1 := at_lt_n e2.1 (hat w hw)
        have l2 := at_lt_n e2.1 (hat v hv)
        rw [e3, q2] at l1 l2
        exact (htog' w l1 v l2).1 ⟨i, hat w hw, hat v hv⟩
      · rintro rfl
        exact hv
    rw [if_pos (Or.inl hone)]
    rw [if_pos (Or.inr (Or.inl trivial))]
    exact ⟨_, p', rfl, e2, by rw [e3, q2], htog'⟩

end Verif.Rounding
