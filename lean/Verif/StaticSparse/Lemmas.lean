import Verif.StaticSparse.Spec
import Verif.SparseLouvain.Props
import Verif.SparseFlow.Props

/-!
# A node without neighbours stays alone in the last cluster
-/

namespace Verif.StaticSparse

open Verif.Csr Verif.Autocov Verif.Partition Verif.SparseLouvain
open Verif.Louvain (Sched Params potentialNewClusters listSet updatePart)

variable {K : Type} [Field K] [LinearOrder K] [IsStrictOrderedRing K]

/-- Nothing but itself is stored with the node `z`. -/
def AloneAt (A : Autocov K) (z : Nat) : Prop :=
  (∀ u ∈ sneighs A z, u = z) ∧ ∀ v < A.PT.nrows, z ∈ sneighs A v → v = z

/-- The state of the partition during the first pass. -/
def Last (z : Nat) (p : Part) : Prop :=
  Consistent p ∧ p.numNodes = z + 1 ∧ p.clusters.length = z + 1 ∧ p.clusters[z]? = some {z}

theorem sScan_mem {A : Autocov K} {p : Part} {node : Nat} {ci : Int} {rOut : K} :
    ∀ (l : List Int) (best : K) (c : Int) (r : K × Int),
      sScan A p node ci rOut l best c = .ok r → r.2 = c ∨ r.2 ∈ l
  | [], best, c, r, h => by
    simp only [sScan, Except.ok.injEq] at h
    rw [← h]; exact Or.inl rfl
  | cf :: l, best, c, r, h => by
    unfold sScan at h
    split at h
    · split at h
      · cases h
      · split at h
        · rcases sScan_mem l _ _ r h with h | h
          · exact Or.inr (by rw [h]; simp)
          · exact Or.inr (by simp [h])
        · rcases sScan_mem l _ _ r h with h | h
          · exact Or.inl h
          · exact Or.inr (by simp [h])
    · rcases sScan_mem l _ _ r h with h | h
      · exact Or.inl h
      · exact Or.inr (by simp [h])

/-- A visit leaves the partition or moves the node to the cluster of a neighbour. -/
theorem sVisit_cases {A : Autocov K} {p p' : Part} (h : Consistent p) (it : Finset Int → List Int)
    (hit : ∀ s x, x ∈ it s ↔ x ∈ s) {v : Nat} {g : K} (hres : sVisit A it p v = .ok (g, p')) :
    p' = p ∨ ∃ ci cf u : Nat, p.dict v = some (ci : Int) ∧ ci ≠ cf ∧ u ∈ sneighs A v ∧
      At p.clusters cf u ∧ cf < p.clusters.length ∧ p' = (moveNode p v cf).2 := by
  unfold sVisit at hres
  split at hres
  · cases hres
  rename_i ci hd
  split at hres
  · cases hres
  rename_i rOut hout
  split at hres
  · cases hres
  rename_i comms hcomms
  split at hres
  · cases hres
  rename_i best c hscan
  split at hres
  · rename_i hne
    have hc := sScan_mem _ _ _ _ hscan
    simp only at hc
    have hc := hc.resolve_left hne
    rw [hit] at hc
    unfold potentialNewClusters at hcomms
    simp only [hd] at hcomms
    split at hcomms
    · cases hcomms
    cases hcomms
    have hc := (Finset.mem_erase.1 hc).2
    rw [Finset.mem_eraseNone, Finset.mem_image] at hc
    obtain ⟨u, hu, hdu⟩ := hc
    obtain ⟨cf, rfl, hat⟩ := (h.2 u c).1 hdu
    obtain ⟨k, rfl, _⟩ := (h.2 v ci).1 hd
    split at hres
    · cases hres
    rename_i p1 hmv
    simp only [Except.ok.injEq, Prod.mk.injEq] at hres
    right
    refine ⟨k, cf, u, hd, by omega, hu, hat, at_lt hat, ?_⟩
    rw [hmv]
    exact hres.2.symm
  · simp only [Except.ok.injEq, Prod.mk.injEq] at hres
    exact Or.inl hres.2.symm

theorem sVisit_last {A : Autocov K} {z : Nat} (hA : AloneAt A z) (hn : A.PT.nrows = z + 1) {p p' : Part}
    (h : Last z p) (it : Finset Int → List Int) (hit : ∀ s x, x ∈ it s ↔ x ∈ s) {v : Nat}
    (hv : v < z + 1) {g : K} (hres : sVisit A it p v = .ok (g, p')) : Last z p' := by
  obtain ⟨h1, h2, h3, h4⟩ := h
  rcases sVisit_cases h1 it hit hres with rfl | ⟨ci, cf, u, hd, hne, hu, hat, hcf, rfl⟩
  · exact ⟨h1, h2, h3, h4⟩
  have hzz : At p.clusters z z := ⟨_, h4, by simp⟩
  have hz : ∀ k w, At p.clusters k w → w ≠ z → k ≠ z := by
    rintro k w ⟨c, hc, hw⟩ hw0 rfl
    rw [h4] at hc
    cases hc
    exact hw0 (by simpa using hw)
  obtain ⟨k, hk, hatv⟩ := (h1.2 v ci).1 hd
  have hk : ci = k := by omega
  subst hk
  have hvz : v ≠ z := by
    rintro rfl
    have := hA.1 u hu
    subst this
    have e1 := h1.1.disj _ _ _ hat hzz
    have e2 := h1.1.disj _ _ _ hatv hzz
    omega
  have huz : u ≠ z := by
    rintro rfl
    exact hvz (hA.2 v (by omega) hu)
  have hcfz := hz cf u hat huz
  have hciz := hz ci v hatv hvz
  refine ⟨consistent_move h1 (by omega) (by omega), ?_, ?_, ?_⟩
  · rw [(Verif.Louvain.moveNode_numNodes p v cf).1, h2]
  · rw [(Verif.Louvain.moveNode_numNodes p v cf).2, h3]
  · rw [moveNode_ok h1 hd hcf hne]
    simp [hcfz, hciz, h4]

theorem sSweep_last {A : Autocov K} {z : Nat} (hA : AloneAt A z) (hn : A.PT.nrows = z + 1)
    (it : Nat → Finset Int → List Int) (hit : ∀ v s x, x ∈ it v s ↔ x ∈ s) :
    ∀ (l : List Nat) (d : K) (p : Part), (∀ v ∈ l, v < z + 1) → Last z p → ∀ g p',
      sSweep A it l d p = .ok (g, p') → Last z p'
  | [], d, p, _, h, g, p', hres => by
    simp only [sSweep, Except.ok.injEq, Prod.mk.injEq] at hres
    rw [← hres.2]; exact h
  | v :: l, d, p, hl, h, g, p', hres => by
    unfold sSweep at hres
    split at hres
    · cases hres
    · rename_i g1 p1 hv
      exact sSweep_last hA hn it hit l _ p1 (fun u hu => hl u (by simp [hu]))
        (sVisit_last hA hn h (it v) (hit v) (hl v (by simp)) hv) g p' hres

/-- What the first pass returns: the node `z` is alone in the last cluster. -/
theorem sMoveLoop_last {A : Autocov K} {z : Nat} (hA : AloneAt A z) (hn : A.PT.nrows = z + 1) (sc : Sched)
    (m : Nat) (thr : K) (nSub : Nat) : ∀ (steps nLoop : Nat) (dLoop dTot : K) (p : Part), Last z p →
      ∀ d k p', sMoveLoop sc m thr nSub A steps nLoop dLoop dTot p = .ok (d, k, p') →
        Consistent p' ∧ p'.numNodes = z + 1 ∧ (∀ c ∈ p'.clusters, c.Nonempty) ∧ p'.clusters.getLast? = some {z}
  | 0, nLoop, dLoop, dTot, p, h, d, k, p', hres => by simp [sMoveLoop] at hres
  | steps + 1, nLoop, dLoop, dTot, p, h, d, k, p', hres => by
    unfold sMoveLoop at hres
    split at hres
    · split at hres
      · cases hres
      · rename_i g1 p1 hs
        refine sMoveLoop_last hA hn sc m thr nSub steps _ _ _ p1 ?_ d k p' hres
        refine sSweep_last hA hn _ (sc.mem_listing m nLoop) _ _ p ?_ h _ _ hs
        intro v hv
        have := List.mem_range.1 ((sc.order_perm m nLoop _).mem_iff.1 hv)
        omega
    · simp only [Except.ok.injEq, Prod.mk.injEq] at hres
      rw [← hres.2.2]
      obtain ⟨h1, h2, h3, h4⟩ := h
      refine ⟨consistent_removeEmpty h1.1, h2, ?_, ?_⟩
      · intro c hc
        exact Finset.card_pos.1 (by simpa using (List.mem_filter.1 hc).2)
      · unfold removeEmpty
        dsimp only
        have hl : p.clusters = p.clusters.take z ++ [{z}] := by
          have := List.take_append_drop z p.clusters
          rw [← this]
          congr 1
          · simp [h3]
          · rw [List.drop_eq_getElem_cons (by omega)]
            rw [List.getElem?_eq_getElem (by omega)] at h4
            cases h4' : p.clusters[z]'(by omega)
            simp only [Option.some.injEq] at h4
            rw [← h4', h4, List.drop_eq_nil_of_le (by omega)]
        rw [hl, List.filter_append]
        simp

end Verif.StaticSparse
