import Verif.Louvain.Spec
import Verif.Partition.Lemmas
import Mathlib.Algebra.BigOperators.Ring.Finset
import Mathlib.Algebra.Order.BigOperators.Group.Finset
import Mathlib.Tactic.Ring
import Mathlib.Tactic.Abel
import Mathlib.Tactic.FieldSimp
import Mathlib.Tactic.NormNum
import Mathlib.Tactic.Positivity
import Mathlib.Algebra.Order.BigOperators.Group.Finset
import Mathlib.Algebra.BigOperators.Field

namespace Verif.Louvain

open Verif.Partition

variable {K : Type} [Field K] [LinearOrder K] [IsStrictOrderedRing K]

theorem sum_map_getD {α M : Type} [AddCommMonoid M] (l : List α) (f : α → M) (d : α) :
    (l.map f).sum = ∑ k ∈ Finset.range l.length, f (l.getD k d) := by
  induction l with
  | nil => simp
  | cons a l ih =>
    rw [List.map_cons, List.sum_cons, ih, List.length_cons, Finset.sum_range_succ']
    simp [add_comm]

theorem blockSum_empty (S : Nat → Nat → K) : blockSum S ∅ ∅ = 0 := rfl

theorem autocov_entry (S : Nat → Nat → K) (c : Finset Nat) :
    (if 0 < c.card then blockSum S c c else 0) = blockSum S c c := by
  split
  · rfl
  · rename_i h
    have : c = ∅ := Finset.card_eq_zero.1 (by omega)
    rw [this, blockSum_empty]

theorem stability_eq (S : Nat → Nat → K) (p : Part) :
    stability S p = (p.clusters.map fun c => blockSum S c c).sum := by
  unfold stability clusteredAutocov
  congr 1
  apply List.map_congr_left
  intro c _
  exact autocov_entry S c

theorem at_lt_n {n : Nat} {cl : List (Finset Nat)} (h : IsPartition n cl) {k v : Nat}
    (hk : At cl k v) : v < n := by
  by_contra hv
  exact (h v).2 (by omega) k hk

open Classical in
/-- Summing over clusters and then over their members is summing over the nodes. -/
theorem sum_clusters {M : Type} [AddCommMonoid M] {n : Nat} {cl : List (Finset Nat)}
    (h : IsPartition n cl) (lab : Nat → Nat) (hlab : ∀ v < n, At cl (lab v) v)
    (F : Nat → Nat → M) :
    ∑ k ∈ Finset.range cl.length, ∑ i ∈ cl.getD k ∅, F k i
      = ∑ i ∈ Finset.range n, F (lab i) i := by
  have h1 : ∀ k ∈ Finset.range cl.length, ∑ i ∈ cl.getD k ∅, F k i
      = ∑ i ∈ Finset.range n, if At cl k i then F k i else 0 := by
    intro k _
    rw [← Finset.sum_filter]
    apply Finset.sum_congr _ (fun _ _ => rfl)
    ext v
    rw [Finset.mem_filter, Finset.mem_range, at_getD]
    exact ⟨fun hv => ⟨at_lt_n h hv, hv⟩, fun hv => hv.2⟩
  rw [Finset.sum_congr rfl h1, Finset.sum_comm]
  apply Finset.sum_congr rfl
  intro i hi
  have hi := Finset.mem_range.1 hi
  rw [Finset.sum_eq_single (lab i)]
  · rw [if_pos (hlab i hi)]
  · intro k _ hk
    rw [if_neg]
    intro hki
    exact hk (h.disj i k (lab i) hki (hlab i hi))
  · intro hk
    exact absurd (Finset.mem_range.2 (at_lt (hlab i hi))) hk

theorem exists_lab {n : Nat} {cl : List (Finset Nat)} (h : IsPartition n cl) :
    ∃ lab : Nat → Nat, ∀ v < n, At cl (lab v) v := by
  classical
  refine ⟨fun v => if hv : v < n then ((h v).1 hv).exists.choose else 0, fun v hv => ?_⟩
  simp only [hv, dif_pos]
  exact ((h v).1 hv).exists.choose_spec

theorem together_iff_lab {n : Nat} {cl : List (Finset Nat)} (h : IsPartition n cl)
    {lab : Nat → Nat} (hlab : ∀ v < n, At cl (lab v) v) {u v : Nat} (hu : u < n) (hv : v < n) :
    Together cl u v ↔ lab u = lab v := by
  constructor
  · rintro ⟨i, h1, h2⟩
    rw [← h.disj u i _ h1 (hlab u hu), ← h.disj v i _ h2 (hlab v hv)]
  · intro heq
    exact ⟨lab u, hlab u hu, heq ▸ hlab v hv⟩

/-- Block sums along a partition, as a double sum over the nodes. -/
theorem blockSum_lab (S : Nat → Nat → K) {n : Nat} {cl : List (Finset Nat)}
    (h : IsPartition n cl) (lab : Nat → Nat) (hlab : ∀ v < n, At cl (lab v) v)
    (G : Nat → Nat → K → K) (hG : ∀ a b (s : Finset Nat) (f : Nat → K),
      G a b (∑ i ∈ s, f i) = ∑ i ∈ s, G a b (f i)) :
    ∑ s ∈ Finset.range cl.length, ∑ t ∈ Finset.range cl.length,
        G s t (blockSum S (cl.getD s ∅) (cl.getD t ∅))
      = ∑ i ∈ Finset.range n, ∑ j ∈ Finset.range n, G (lab i) (lab j) (S i j) := by
  have h1 : ∀ s ∈ Finset.range cl.length, ∑ t ∈ Finset.range cl.length,
        G s t (blockSum S (cl.getD s ∅) (cl.getD t ∅))
      = ∑ i ∈ cl.getD s ∅, ∑ j ∈ Finset.range n, G s (lab j) (S i j) := by
    intro s _
    have : ∀ t, G s t (blockSum S (cl.getD s ∅) (cl.getD t ∅))
        = ∑ j ∈ cl.getD t ∅, ∑ i ∈ cl.getD s ∅, G s t (S i j) := by
      intro t
      rw [Finset.sum_comm]
      unfold blockSum
      rw [hG]
      exact Finset.sum_congr rfl fun i _ => hG ..
    rw [Finset.sum_congr rfl fun t _ => this t,
      sum_clusters h lab hlab (fun t j => ∑ i ∈ cl.getD s ∅, G s t (S i j)), Finset.sum_comm]
  rw [Finset.sum_congr rfl h1,
    sum_clusters h lab hlab (fun s i => ∑ j ∈ Finset.range n, G s (lab j) (S i j))]

theorem stability_pair (S : Nat → Nat → K) (p : Part)
    (h : IsPartition p.numNodes p.clusters) : stability S p = pairStability S p := by
  classical
  obtain ⟨lab, hlab⟩ := exists_lab h
  rw [stability_eq, sum_map_getD p.clusters _ ∅]
  have key := blockSum_lab S h lab hlab (fun a b x => if a = b then x else 0) (by
    intro a b s f
    split
    · rfl
    · simp)
  have hl : ∑ k ∈ Finset.range p.clusters.length,
        blockSum S (p.clusters.getD k ∅) (p.clusters.getD k ∅)
      = ∑ s ∈ Finset.range p.clusters.length, ∑ t ∈ Finset.range p.clusters.length,
        if s = t then blockSum S (p.clusters.getD s ∅) (p.clusters.getD t ∅) else 0 := by
    apply Finset.sum_congr rfl
    intro s hs
    rw [Finset.sum_ite_eq, if_pos hs]
  rw [hl, key]
  unfold pairStability
  apply Finset.sum_congr rfl
  intro i hi
  apply Finset.sum_congr rfl
  intro j hj
  have := together_iff_lab h hlab (Finset.mem_range.1 hi) (Finset.mem_range.1 hj)
  by_cases hij : lab i = lab j
  · rw [if_pos hij, if_pos (this.2 hij)]
  · rw [if_neg hij, if_neg (fun h' => hij (this.1 h'))]

/-! ### gains -/

theorem getCluster_nat {p : Part} {c : Nat} (h : c < p.clusters.length) :
    getCluster p c = .ok (p.clusters.getD c ∅) := by
  unfold getCluster
  rw [pyIndex_nonneg (by omega) (by omega)]
  simp

theorem blockSum_insert (S : Nat → Nat → K) (c : Finset Nat) (v : Nat) (hv : v ∉ c) :
    blockSum S (insert v c) (insert v c)
      = blockSum S c c + ((∑ j ∈ c, S v j) + (∑ i ∈ c, S i v) + S v v) := by
  unfold blockSum
  rw [Finset.sum_insert hv, Finset.sum_insert hv]
  have : ∀ i ∈ c, ∑ j ∈ insert v c, S i j = S i v + ∑ j ∈ c, S i j :=
    fun i _ => Finset.sum_insert hv
  rw [Finset.sum_congr rfl this, Finset.sum_add_distrib]
  ring

theorem blockSum_erase (S : Nat → Nat → K) (c : Finset Nat) (v : Nat) (hv : v ∈ c) :
    blockSum S (c.erase v) (c.erase v)
      = blockSum S c c + (-(∑ j ∈ c, S v j) - (∑ i ∈ c, S i v) + S v v) := by
  have h := blockSum_insert S (c.erase v) v (Finset.notMem_erase v c)
  rw [Finset.insert_erase hv] at h
  have h1 : ∑ j ∈ c, S v j = S v v + ∑ j ∈ c.erase v, S v j :=
    (Finset.add_sum_erase c (fun j => S v j) hv).symm
  have h2 : ∑ i ∈ c, S i v = S v v + ∑ i ∈ c.erase v, S i v :=
    (Finset.add_sum_erase c (fun i => S i v) hv).symm
  rw [h, h1, h2]
  ring

theorem sum_modify (cl : List (Finset Nat)) (g : Finset Nat → K) (k : Nat)
    (f : Finset Nat → Finset Nat) (hk : k < cl.length) :
    ((cl.modify k f).map g).sum
      = (cl.map g).sum + (g (f (cl.getD k ∅)) - g (cl.getD k ∅)) := by
  induction cl generalizing k with
  | nil => simp at hk
  | cons a l ih =>
    cases k with
    | zero => simp; ring
    | succ k =>
      have := ih k (by simpa using hk)
      simp only [List.modify_succ_cons, List.map_cons, List.sum_cons, this, List.getD_cons_succ]
      ring

theorem getD_modify_ne (cl : List (Finset Nat)) (k j : Nat) (f : Finset Nat → Finset Nat)
    (h : k ≠ j) : (cl.modify k f).getD j ∅ = cl.getD j ∅ := by
  rw [List.getD_eq_getElem?_getD, List.getD_eq_getElem?_getD, List.getElem?_modify]
  cases cl[j]? <;> simp [h]

/-- In a consistent partition the gains exist and add up to the change of stability. -/
theorem gain_exact (S : Nat → Nat → K) {p : Part} (h : Consistent p) {v ci cf : Nat}
    (hd : p.dict v = some (ci : Int)) (hcf : cf < p.clusters.length) (hne : ci ≠ cf) :
    ∃ rOut rIn, deltaOut S p v ci = .ok rOut ∧ deltaTo S p v cf = .ok rIn ∧
      stability S (moveNode p v cf).2 = stability S p + (rOut + rIn) := by
  have hlt := h.dict_lt hd
  obtain ⟨k, hk, hat⟩ := (h.2 v ci).1 hd
  have hk' : ci = k := by omega
  subst hk'
  have hin : v ∈ p.clusters.getD ci ∅ := at_getD.2 hat
  have hnotin : v ∉ p.clusters.getD cf ∅ := fun hf => hne (h.1.disj v ci cf hat (at_getD.1 hf))
  refine ⟨-(∑ j ∈ p.clusters.getD ci ∅, S v j) - (∑ i ∈ p.clusters.getD ci ∅, S i v) + S v v,
    (∑ j ∈ p.clusters.getD cf ∅, S v j) + (∑ i ∈ p.clusters.getD cf ∅, S i v) + S v v, ?_, ?_, ?_⟩
  · unfold deltaOut
    rw [getCluster_nat (by omega)]
    simp only [hin, not_true_eq_false, if_false]
  · unfold deltaTo
    rw [getCluster_nat hcf]
    simp only [hnotin, if_false]
  rw [moveNode_ok h hd hcf hne, stability_eq, stability_eq]
  simp only
  rw [sum_modify _ _ _ _ (by rw [List.length_modify]; exact hcf), getD_modify_ne _ _ _ _ hne,
    sum_modify _ _ _ _ (by omega), blockSum_insert S _ v hnotin, blockSum_erase S _ v hin]
  ring

theorem sumSto_eq (S : Nat → Nat → K) (k : Nat) (c : Finset Nat) (ix : List Nat)
    (hnd : ix.Nodup) (hmem : ∀ v, v ∈ ix ↔ v ∈ c) :
    sumSto S k ix = (∑ j ∈ c, S k j) + (∑ i ∈ c, S i k) + S k k := by
  have hc : c = ix.toFinset := by ext v; simp [hmem]
  have hf : ∀ (l : List Nat) (d : K),
      l.foldl (fun d i => d + S k i + S i k) d = d + ((l.map fun i => S k i).sum
        + (l.map fun i => S i k).sum) := by
    intro l
    induction l with
    | nil => simp
    | cons a l ih => intro d; simp [ih]; ring
  unfold sumSto
  rw [hf, hc, List.sum_toFinset _ hnd, List.sum_toFinset _ hnd]
  ring

theorem sumSout_eq (S : Nat → Nat → K) (k : Nat) (c : Finset Nat) (ix : List Nat)
    (hnd : ix.Nodup) (hmem : ∀ v, v ∈ ix ↔ v ∈ c) :
    sumSout S k ix = -(∑ j ∈ c, S k j) - (∑ i ∈ c, S i k) + S k k := by
  have hc : c = ix.toFinset := by ext v; simp [hmem]
  have hf : ∀ (l : List Nat) (d : K),
      l.foldl (fun d i => d - S k i - S i k) d = d - ((l.map fun i => S k i).sum
        + (l.map fun i => S i k).sum) := by
    intro l
    induction l with
    | nil => simp
    | cons a l ih => intro d; simp [ih]; ring
  unfold sumSout
  rw [hf, hc, List.sum_toFinset _ hnd, List.sum_toFinset _ hnd]
  ring

/-! ### one node, one sweep, one phase -/

/-- Candidates are clusters of other nodes. -/
theorem potential_ok {p : Part} (h : Consistent p) {nb : Finset Nat} (hnb : ∀ u ∈ nb, u < p.numNodes)
    {v : Nat} {ci : Int} (hd : p.dict v = some ci) :
    ∃ cs, potentialNewClusters p nb v = .ok cs ∧
      ∀ x, x ∈ cs ↔ x ≠ ci ∧ ∃ u ∈ nb, p.dict u = some x := by
  have hno : none ∉ nb.image p.dict := by
    rw [Finset.mem_image]
    rintro ⟨u, hu, hn⟩
    obtain ⟨k, hk, _⟩ := h.dict_some (hnb u hu)
    rw [hk] at hn
    simp at hn
  refine ⟨(Finset.eraseNone (nb.image p.dict)).erase ci, ?_, fun x => ?_⟩
  · unfold potentialNewClusters
    simp only [hno, if_false, hd]
  · rw [Finset.mem_erase, Finset.mem_eraseNone, Finset.mem_image]

theorem scan_spec (S : Nat → Nat → K) {p : Part} {v : Nat} {ci : Int} {rOut : K} (l : List Int)
    (hl : ∀ x ∈ l, x ≠ ci → ∃ r, deltaTo S p v x = .ok r) (best : K) (c : Int)
    (h0 : 0 ≤ best)
    (hinv : (c = ci ∧ best = 0) ∨ (c ≠ ci ∧ ∃ r, deltaTo S p v c = .ok r ∧ best = rOut + r)) :
    ∃ best' c', scan S p v ci rOut l best c = .ok (best', c') ∧ best ≤ best' ∧
      (∀ x ∈ l, x ≠ ci → ∀ r, deltaTo S p v x = .ok r → rOut + r ≤ best') ∧
      ((c' = ci ∧ best' = 0) ∨
        (c' ≠ ci ∧ (c' = c ∨ c' ∈ l) ∧ ∃ r, deltaTo S p v c' = .ok r ∧ best' = rOut + r)) := by
  induction l generalizing best c with
  | nil =>
    refine ⟨best, c, rfl, le_refl _, by simp, ?_⟩
    rcases hinv with h | ⟨h1, h2⟩
    · exact Or.inl h
    · exact Or.inr ⟨h1, Or.inl rfl, h2⟩
  | cons x l ih =>
    have hl' : ∀ y ∈ l, y ≠ ci → ∃ r, deltaTo S p v y = .ok r :=
      fun y hy => hl y (List.mem_cons_of_mem _ hy)
    by_cases hx : x = ci
    · obtain ⟨b, c', h1, h2, h3, h4⟩ := ih hl' best c h0 hinv
      refine ⟨b, c', ?_, h2, ?_, ?_⟩
      · simp only [scan, hx, ne_eq, not_true_eq_false, if_false]
        exact h1
      · intro y hy hyc
        rcases List.mem_cons.1 hy with rfl | hy
        · exact absurd hx hyc
        · exact h3 y hy hyc
      · rcases h4 with h4 | ⟨h5, h6, h7⟩
        · exact Or.inl h4
        · exact Or.inr ⟨h5, h6.imp id (List.mem_cons_of_mem _), h7⟩
    · obtain ⟨r, hr⟩ := hl x (by simp) hx
      by_cases hb : best ≤ rOut + r
      · obtain ⟨b, c', h1, h2, h3, h4⟩ := ih hl' (rOut + r) x (le_trans h0 hb)
          (Or.inr ⟨hx, r, hr, rfl⟩)
        refine ⟨b, c', ?_, le_trans hb h2, ?_, ?_⟩
        · simp only [scan, ne_eq, hx, not_false_eq_true, if_true, hr, hb]
          exact h1
        · intro y hy hyc r' hr'
          rcases List.mem_cons.1 hy with rfl | hy
          · rw [hr] at hr'
            injection hr' with hr'
            exact hr' ▸ h2
          · exact h3 y hy hyc r' hr'
        · rcases h4 with h4 | ⟨h5, h6, h7⟩
          · exact Or.inl h4
          · refine Or.inr ⟨h5, Or.inr ?_, h7⟩
            rcases h6 with rfl | h6
            · simp
            · exact List.mem_cons_of_mem _ h6
      · obtain ⟨b, c', h1, h2, h3, h4⟩ := ih hl' best c h0 hinv
        refine ⟨b, c', ?_, h2, ?_, ?_⟩
        · simp only [scan, ne_eq, hx, not_false_eq_true, if_true, hr, hb, if_false]
          exact h1
        · intro y hy hyc r' hr'
          rcases List.mem_cons.1 hy with rfl | hy
          · rw [hr] at hr'
            injection hr' with hr'
            rw [← hr']
            exact le_trans (le_of_lt (not_le.1 hb)) h2
          · exact h3 y hy hyc r' hr'
        · rcases h4 with h4 | ⟨h5, h6, h7⟩
          · exact Or.inl h4
          · exact Or.inr ⟨h5, h6.imp id (List.mem_cons_of_mem _), h7⟩

theorem moveNode_numNodes (p : Part) (v : Nat) (c : Int) :
    (moveNode p v c).2.numNodes = p.numNodes ∧
      (moveNode p v c).2.clusters.length = p.clusters.length := by
  unfold moveNode
  split
  · exact ⟨rfl, rfl⟩
  · split
    · dsimp only
      split
      · exact ⟨rfl, rfl⟩
      · split
        · split
          · exact ⟨rfl, List.length_modify ..⟩
          · exact ⟨rfl, by simp⟩
        · exact ⟨rfl, rfl⟩
    · exact ⟨rfl, rfl⟩

/-- What handling one node does: never an exception, exact and nonnegative gain, and no
candidate cluster would have given more. -/
theorem visit_spec (S T : Nat → Nat → K) {p : Part} (h : Consistent p)
    (it : Finset Int → List Int) (hit : ∀ s x, x ∈ it s ↔ x ∈ s) {v : Nat} (hv : v < p.numNodes) :
    ∃ g p', visit S T p.numNodes it p v = .ok (g, p') ∧ Consistent p' ∧
      p'.numNodes = p.numNodes ∧ 0 ≤ g ∧ stability S p' = stability S p + g ∧
      (p' = p ∨ ∃ cf : Nat, cf < p.clusters.length ∧ p' = (moveNode p v cf).2 ∧
        ∃ u ∈ neighs T p.numNodes v, At p.clusters cf u) ∧
      ∀ u ∈ neighs T p.numNodes v, ∀ cf : Nat, At p.clusters cf u →
        stability S (moveNode p v cf).2 ≤ stability S p' := by
  obtain ⟨ci, hd, hat⟩ := h.dict_some hv
  have hnb : ∀ u ∈ neighs T p.numNodes v, u < p.numNodes := by
    intro u hu
    exact Finset.mem_range.1 (Finset.mem_filter.1 hu).1
  obtain ⟨cs, hcs, hmem⟩ := potential_ok h hnb hd
  obtain ⟨rOut, hrOut⟩ : ∃ r, deltaOut S p v ci = .ok r := by
    unfold deltaOut
    rw [getCluster_nat (at_lt hat)]
    simp [at_getD.2 hat, -List.getD_eq_getElem?_getD]
  have hvalid : ∀ x, x ∈ cs → ∃ cf : Nat, x = cf ∧ cf < p.clusters.length ∧ ci ≠ cf := by
    intro x hx
    obtain ⟨hne, u, hu, hdu⟩ := (hmem x).1 hx
    obtain ⟨k, rfl, hk⟩ := (h.2 u x).1 hdu
    exact ⟨k, rfl, at_lt hk, fun he => hne (by rw [he])⟩
  have hgain : ∀ cf : Nat, cf < p.clusters.length → ci ≠ cf → ∃ r, deltaTo S p v cf = .ok r ∧
      stability S (moveNode p v cf).2 = stability S p + (rOut + r) := by
    intro cf hcf hne
    obtain ⟨r1, r2, h1, h2, h3⟩ := gain_exact S h hd hcf hne
    rw [hrOut] at h1
    injection h1 with h1
    subst h1
    exact ⟨r2, h2, h3⟩
  obtain ⟨best, c, hscan, hbest, hmax, hcase⟩ := scan_spec S (p := p) (v := v) (ci := (ci : Int))
    (rOut := rOut) (it cs) (by
      intro x hx _
      obtain ⟨cf, rfl, hcf, hne⟩ := hvalid x ((hit cs x).1 hx)
      obtain ⟨r, hr, _⟩ := hgain cf hcf hne
      exact ⟨r, hr⟩) 0 ci (le_refl _) (Or.inl ⟨rfl, rfl⟩)
  have hself : (moveNode p v ci).2 = p := by unfold moveNode; rw [hd]; simp
  have hopt : ∀ u ∈ neighs T p.numNodes v, ∀ cf : Nat, At p.clusters cf u →
      stability S (moveNode p v cf).2 ≤ stability S p + best := by
    intro u hu cf hcf
    by_cases he : ci = cf
    · subst he
      rw [hself]
      exact le_add_of_nonneg_right hbest
    · obtain ⟨r, hr, hs⟩ := hgain cf (at_lt hcf) he
      rw [hs]
      have hx : (cf : Int) ∈ cs := (hmem _).2 ⟨by omega, u, hu, (h.2 u cf).2 ⟨cf, rfl, hcf⟩⟩
      have := hmax cf ((hit _ _).2 hx) (by omega) r hr
      linarith
  rcases hcase with ⟨hc, hb⟩ | ⟨hc, hcin, r, hr, hb⟩
  · refine ⟨0, p, ?_, h, rfl, le_refl _, by simp, Or.inl rfl, ?_⟩
    · unfold visit
      simp only [hd, hrOut, hcs, hscan, hc, ne_eq, not_true_eq_false, if_false]
    · rw [hb] at hopt
      simpa using hopt
  · have hcin' : c ∈ cs := (hit _ _).1 (hcin.resolve_left hc)
    obtain ⟨cf, rfl, hcf, hne⟩ := hvalid c hcin'
    have hnear : ∃ u ∈ neighs T p.numNodes v, At p.clusters cf u := by
      obtain ⟨_, u, hu, hdu⟩ := (hmem _).1 hcin'
      obtain ⟨k, hk, hat'⟩ := (h.2 u _).1 hdu
      have : cf = k := by omega
      exact ⟨u, hu, this ▸ hat'⟩
    obtain ⟨r', hr', hs⟩ := hgain cf hcf hne
    rw [hr] at hr'
    injection hr' with hr'
    subst hr'
    have hmv := moveNode_ok h hd hcf hne
    have hcons := consistent_move (v := v) h (cf := (cf : Int)) (by omega) (by omega)
    refine ⟨best, (moveNode p v cf).2, ?_, hcons, (moveNode_numNodes ..).1, hbest,
      by rw [hs, hb], Or.inr ⟨cf, hcf, rfl, hnear⟩, ?_⟩
    · unfold visit
      simp only [hd, hrOut, hcs, hscan, ne_eq, hc, not_false_eq_true, if_true]
      rw [hmv]
    · rw [hs, ← hb]
      exact hopt

theorem sweep_spec (S T : Nat → Nat → K) (it : Nat → Finset Int → List Int)
    (hit : ∀ v s x, x ∈ it v s ↔ x ∈ s) (l : List Nat) (d : K) {p : Part} (h : Consistent p)
    (hl : ∀ v ∈ l, v < p.numNodes) :
    ∃ g p', sweep S T p.numNodes it l d p = .ok (d + g, p') ∧ Consistent p' ∧
      p'.numNodes = p.numNodes ∧ 0 ≤ g ∧ stability S p' = stability S p + g := by
  induction l generalizing d p with
  | nil => exact ⟨0, p, by simp [sweep], h, rfl, le_refl _, by simp⟩
  | cons v l ih =>
    obtain ⟨g, p1, h1, h2, h3, h4, h5, _⟩ := visit_spec S T h (it v) (hit v) (hl v (by simp))
    obtain ⟨g', p2, h6, h7, h8, h9, h10⟩ := ih (d + g) h2 (by
      intro u hu
      rw [h3]
      exact hl u (by simp [hu]))
    refine ⟨g + g', p2, ?_, h7, h8.trans h3, add_nonneg h4 h9, ?_⟩
    · simp only [sweep, h1]
      rw [← h3, h6]
      rw [add_assoc]
    · rw [h10, h5, add_assoc]

theorem stability_removeEmpty (S : Nat → Nat → K) (p : Part) :
    stability S (removeEmpty p) = stability S p := by
  rw [stability_eq, stability_eq]
  unfold removeEmpty
  simp only
  induction p.clusters with
  | nil => rfl
  | cons c cs ih =>
    simp only [List.filter_cons, decide_eq_true_eq]
    split
    · simp only [List.map_cons, List.sum_cons, ih]
    · rename_i hc
      have : c = ∅ := Finset.card_eq_zero.1 (by omega)
      rw [ih, List.map_cons, List.sum_cons, this, blockSum_empty, zero_add]

theorem moveLoop_spec (sc : Sched) (m : Nat) (thr : K) (nSub : Nat) (S T : Nat → Nat → K)
    (steps nLoop : Nat) (dLoop dTot : K) {p : Part} (h : Consistent p)
    (hs : nSub - nLoop < steps) :
    ∃ g k p', moveLoop sc m thr nSub S T p.numNodes steps nLoop dLoop dTot p
        = .ok (dTot + g, k, p') ∧ Consistent p' ∧ p'.numNodes = p.numNodes ∧ 0 ≤ g ∧
      stability S p' = stability S p + g ∧ (∀ c ∈ p'.clusters, c.Nonempty) := by
  induction steps generalizing nLoop dLoop dTot p with
  | zero => omega
  | succ steps ih =>
    simp only [moveLoop]
    by_cases hc : thr < dLoop ∧ nLoop < nSub
    · rw [if_pos hc]
      obtain ⟨g, p1, h1, h2, h3, h4, h5⟩ := sweep_spec S T (sc.listing m nLoop)
        (fun v s x => sc.mem_listing m nLoop v s x) (sc.order m nLoop p.numNodes) 0 h (by
          intro v hv
          exact List.mem_range.1 ((sc.order_perm m nLoop p.numNodes).mem_iff.1 hv))
      rw [h1]
      simp only
      obtain ⟨g', k, p2, h6, h7, h8, h9, h10, h11⟩ := ih (nLoop + 1) (0 + g) (dTot + (0 + g)) h2
        (by omega)
      rw [h3] at h6 h8
      refine ⟨g + g', k, p2, ?_, h7, h8, add_nonneg h4 h9, ?_, h11⟩
      · rw [h6]
        congr 2
        ring
      · rw [h10, h5, add_assoc]
    · rw [if_neg hc]
      exact ⟨0, nLoop, removeEmpty p, by simp, consistent_removeEmpty h.1, rfl, le_refl _,
        by rw [stability_removeEmpty, add_zero], (removeEmpty_effect p).2⟩

/-! ### bounds on the loops, whatever the state -/

theorem sweep_steps (S T : Nat → Nat → K) (n : Nat) (it : Nat → Finset Int → List Int)
    (l : List Nat) (d : K) (p : Part) : sweep S T n it l d p ≠ .error .outOfSteps := by
  have hget : ∀ (p : Part) c, getCluster p c ≠ .error .outOfSteps := by
    intro p c
    unfold getCluster
    split <;> simp
  have hto : ∀ (p : Part) v c, deltaTo S p v c ≠ .error .outOfSteps := by
    intro p v c
    unfold deltaTo
    have := hget p c
    split
    · rename_i e he
      rw [he] at this
      exact fun h => this (by simpa using h)
    · split <;> simp
  have hout : ∀ (p : Part) v c, deltaOut S p v c ≠ .error .outOfSteps := by
    intro p v c
    unfold deltaOut
    have := hget p c
    split
    · rename_i e he
      rw [he] at this
      exact fun h => this (by simpa using h)
    · split <;> simp
  have hpot : ∀ (p : Part) nb v, potentialNewClusters p nb v ≠ .error .outOfSteps := by
    intro p nb v
    unfold potentialNewClusters
    dsimp only
    split
    · simp
    · split <;> simp
  have hscan : ∀ (p : Part) v ci rOut (l : List Int) b c,
      scan S p v ci rOut l b c ≠ .error .outOfSteps := by
    intro p v ci rOut l
    induction l with
    | nil => intro b c; simp [scan]
    | cons x l ih =>
      intro b c
      simp only [scan]
      split
      · have := hto p v x
        split
        · rename_i e he
          rw [he] at this
          exact fun h => this (by simpa using h)
        · split <;> exact ih _ _
      · exact ih _ _
  have hmove : ∀ (p : Part) v c, (moveNode p v c).1 ≠ some .outOfSteps := by
    intro p v c
    unfold moveNode
    split
    · simp
    · split
      · dsimp only
        split
        · simp
        · split
          · split <;> simp
          · simp
      · simp
  induction l generalizing d p with
  | nil => simp [sweep]
  | cons v l ih =>
    simp only [sweep]
    have hv : visit S T n (it v) p v ≠ .error .outOfSteps := by
      unfold visit
      split
      · simp
      · split
        · rename_i e he
          have := hout p v ‹_›
          rw [he] at this
          exact fun h => this (by simpa using h)
        · split
          · rename_i e he
            have := hpot p (neighs T n v) v
            rw [he] at this
            exact fun h => this (by simpa using h)
          · split
            · rename_i e he
              intro h
              rw [Except.error.injEq] at h
              subst h
              exact hscan _ _ _ _ _ _ _ he
            · split
              · split
                · rename_i e p1 he
                  intro h
                  rw [Except.error.injEq] at h
                  subst h
                  exact hmove _ _ _ (by rw [he])
                · simp
              · simp
    split
    · rename_i e he
      rw [he] at hv
      exact fun h => hv (by simpa using h)
    · exact ih _ _

theorem moveLoop_steps (sc : Sched) (m : Nat) (thr : K) (nSub : Nat) (S T : Nat → Nat → K) (n : Nat)
    (steps nLoop : Nat) (dLoop dTot : K) (p : Part) (hs : nSub - nLoop < steps) :
    moveLoop sc m thr nSub S T n steps nLoop dLoop dTot p ≠ .error .outOfSteps ∧
      ∀ g k p', moveLoop sc m thr nSub S T n steps nLoop dLoop dTot p = .ok (g, k, p') →
        k ≤ max nLoop nSub := by
  induction steps generalizing nLoop dLoop dTot p with
  | zero => omega
  | succ steps ih =>
    simp only [moveLoop]
    by_cases hc : thr < dLoop ∧ nLoop < nSub
    · rw [if_pos hc]
      have hsw := sweep_steps S T n (sc.listing m nLoop) (sc.order m nLoop n) 0 p
      split
      · rename_i e he
        rw [he] at hsw
        exact ⟨fun h => hsw (by simpa using h), by simp⟩
      · rename_i d p1 he
        obtain ⟨h1, h2⟩ := ih (nLoop + 1) d (dTot + d) p1 (by omega)
        refine ⟨h1, fun g k p' hk => ?_⟩
        have := h2 g k p' hk
        omega
    · rw [if_neg hc]
      refine ⟨by simp, fun g k p' hk => ?_⟩
      simp at hk
      omega

/-! ### aggregation -/

theorem at_iff_getD {cl : List (Finset Nat)} {i v : Nat} : At cl i v ↔ v ∈ cl.getD i ∅ :=
  at_getD.symm

theorem mem_listSet (c : Finset Nat) (v : Nat) : v ∈ listSet c ↔ v ∈ c := by
  unfold listSet
  rw [List.mem_filter, List.mem_range]
  constructor
  · intro h
    simpa using h.2
  · intro h
    have : v ≤ c.sup id := Finset.le_sup (f := id) h
    exact ⟨by omega, by simpa using h⟩

theorem listSet_nodup (c : Finset Nat) : (listSet c).Nodup :=
  List.Nodup.filter _ List.nodup_range

theorem updateItems_spec (md : Nat → Option Int) (i : Nat) (cl : List (Finset Nat))
    (hmd : ∀ k < cl.length, (md (i + k)).isSome) (hd : Disj cl) (hne : ∀ c ∈ cl, c.Nonempty) :
    ∃ items, updateItems md i cl = .ok items ∧ (items.map (·.1)).Nodup ∧
      ∀ v x, (v, x) ∈ items ↔ ∃ k, At cl k v ∧ md (i + k) = some x := by
  induction cl generalizing i with
  | nil => exact ⟨[], rfl, by simp, by simp [at_nil]⟩
  | cons c cs ih =>
    obtain ⟨items, h1, h2, h3⟩ := ih (i + 1) (by
      intro k hk
      have := hmd (k + 1) (by simpa using hk)
      rwa [show i + (k + 1) = i + 1 + k by omega] at this) (disj_tail hd)
      (fun c hc => hne c (by simp [hc]))
    obtain ⟨x0, hx0⟩ := Option.isSome_iff_exists.1 (hmd 0 (by simp))
    simp only [Nat.add_zero] at hx0
    have hc0 : c.card ≠ 0 := by
      have := Finset.card_pos.2 (hne c (by simp))
      omega
    refine ⟨(listSet c).map (fun v => (v, x0)) ++ items, ?_, ?_, ?_⟩
    · simp only [updateItems, hc0, if_false, hx0, h1]
    · rw [List.map_append, List.map_map]
      have : ((fun x : Nat × Int => x.1) ∘ fun v => (v, x0)) = id := rfl
      rw [this, List.map_id]
      rw [List.nodup_append]
      refine ⟨listSet_nodup c, h2, ?_⟩
      intro a ha b hb hab
      subst hab
      obtain ⟨⟨v, x⟩, hvx, rfl⟩ := List.mem_map.1 hb
      obtain ⟨k, hk, _⟩ := (h3 v x).1 hvx
      exact disj_head hd ((mem_listSet _ _).1 ha) hk
    · intro v x
      rw [List.mem_append, h3 v x, List.mem_map]
      constructor
      · rintro (⟨u, hu, he⟩ | ⟨k, hk, he⟩)
        · simp only [Prod.mk.injEq] at he
          obtain ⟨rfl, rfl⟩ := he
          exact ⟨0, (at_zero ..).2 ((mem_listSet _ _).1 hu), hx0⟩
        · exact ⟨k + 1, (at_succ ..).2 hk, by rw [← he]; congr 1; omega⟩
      · rintro ⟨k, hk, he⟩
        cases k with
        | zero =>
          left
          refine ⟨v, (mem_listSet _ _).2 ((at_zero ..).1 hk), ?_⟩
          rw [Nat.add_zero, hx0] at he
          injection he with he
          rw [he]
        | succ k =>
          right
          exact ⟨k, (at_succ ..).1 hk, by rw [← he]; congr 1; omega⟩

theorem removeEmpty_of_nonempty {p : Part} (h : Consistent p) (hne : ∀ c ∈ p.clusters, c.Nonempty) :
    removeEmpty p = p := by
  have h1 : (p.clusters.filter fun c => decide (0 < c.card)) = p.clusters := by
    rw [List.filter_eq_self]
    intro c hc
    simpa using Finset.card_pos.2 (hne c hc)
  have h2 : dictOf p.clusters = p.dict := by
    funext v
    cases hd : p.dict v with
    | some i => exact (dictOf_spec _ h.1.disj v i).2 ((h.2 v i).1 hd)
    | none =>
      cases hd2 : dictOf p.clusters v with
      | none => rfl
      | some i =>
        have := (h.2 v i).2 ((dictOf_spec _ h.1.disj v i).1 hd2)
        rw [hd] at this
        simp at this
  unfold removeEmpty
  simp only [h1, h2]

/-- The induced partition: nodes are together exactly when their clusters are. -/
theorem updatePart_spec {og mp : Part} (hog : Consistent og) (hne : ∀ c ∈ og.clusters, c.Nonempty)
    (hmp : Consistent mp) (hn : mp.numNodes = og.clusters.length) (hpos : 0 < og.numNodes) :
    ∃ p', updatePart og mp = .ok p' ∧ Consistent p' ∧ p'.numNodes = og.numNodes ∧
      (∀ c ∈ p'.clusters, c.Nonempty) ∧
      ∀ u v s t, At og.clusters s u → At og.clusters t v →
        (Together p'.clusters u v ↔ Together mp.clusters s t) := by
  have hmp' : Consistent (removeEmpty mp) := consistent_removeEmpty hmp.1
  have hn' : (removeEmpty mp).numNodes = og.clusters.length := hn
  have hog' := removeEmpty_of_nonempty hog hne
  obtain ⟨items, h1, h2, h3⟩ := updateItems_spec (removeEmpty mp).dict 0 og.clusters (by
    intro k hk
    obtain ⟨c, hc, _⟩ := hmp'.dict_some (v := 0 + k) (by rw [hn']; omega)
    rw [hc]; rfl) hog.1.disj hne
  have hsome : ∀ s, s < og.clusters.length → ∃ x : Nat, (removeEmpty mp).dict s = some (x : Int) := by
    intro s hs
    obtain ⟨c, hc, _⟩ := hmp'.dict_some (v := s) (by rw [hn']; exact hs)
    exact ⟨c, hc⟩
  have hkeys : ∀ v, v ∈ items.map (·.1) ↔ v < og.numNodes := by
    intro v
    rw [(isPartition_iff.1 hog.1).2 v, List.mem_map]
    constructor
    · rintro ⟨⟨u, x⟩, hux, rfl⟩
      obtain ⟨k, hk, _⟩ := (h3 u x).1 hux
      exact ⟨k, hk⟩
    · rintro ⟨k, hk⟩
      obtain ⟨x, hx⟩ := hsome k (at_lt hk)
      exact ⟨(v, x), (h3 v x).2 ⟨k, hk, by rw [Nat.zero_add]; exact hx⟩, rfl⟩
  have hposi : ∀ a ∈ items, 0 ≤ a.2 := by
    rintro ⟨v, x⟩ ha
    obtain ⟨k, _, hx⟩ := (h3 v x).1 ha
    exact (hmp'.dict_lt hx).1
  have hnei : items ≠ [] := by
    intro he
    have := (hkeys 0).2 hpos
    rw [he] at this
    simp at this
  obtain ⟨p', hp', hcons, hnum, htog, hnemp⟩ := mk'_dict og.numNodes items h2 hkeys hposi hnei
  refine ⟨p', ?_, hcons, hnum, hnemp, ?_⟩
  · unfold updatePart
    simp only [hog', h1]
    exact hp'
  · intro u v s t hu hv
    rw [htog, ← (removeEmpty_effect mp).1 s t]
    have hsu : ∀ x, (u, x) ∈ items ↔ (removeEmpty mp).dict s = some x := by
      intro x
      rw [h3]
      constructor
      · rintro ⟨k, hk, he⟩
        rw [Nat.zero_add] at he
        rw [← hog.1.disj u k s hk hu]
        exact he
      · intro he
        exact ⟨s, hu, by rw [Nat.zero_add]; exact he⟩
    have htv : ∀ x, (v, x) ∈ items ↔ (removeEmpty mp).dict t = some x := by
      intro x
      rw [h3]
      constructor
      · rintro ⟨k, hk, he⟩
        rw [Nat.zero_add] at he
        rw [← hog.1.disj v k t hk hv]
        exact he
      · intro he
        exact ⟨t, hv, by rw [Nat.zero_add]; exact he⟩
    constructor
    · rintro ⟨x, h4, h5⟩
      obtain ⟨k, rfl, hk⟩ := (hmp'.2 s x).1 ((hsu x).1 h4)
      obtain ⟨k', hkk, hk'⟩ := (hmp'.2 t _).1 ((htv _).1 h5)
      have : k = k' := by omega
      subst this
      exact ⟨k, hk, hk'⟩
    · rintro ⟨k, hk, hk'⟩
      exact ⟨(k : Int), (hsu _).2 ((hmp'.2 s k).2 ⟨k, rfl, hk⟩),
        (htv _).2 ((hmp'.2 t k).2 ⟨k, rfl, hk'⟩)⟩

/-- Stability of the aggregated network is stability of the induced partition. -/
theorem stability_induced (S : Nat → Nat → K) {og mp p' : Part} (hog : Consistent og)
    (hmp : Consistent mp) (hn : mp.numNodes = og.clusters.length) (hp' : Consistent p')
    (hnum : p'.numNodes = og.numNodes)
    (htog : ∀ u v s t, At og.clusters s u → At og.clusters t v →
        (Together p'.clusters u v ↔ Together mp.clusters s t)) :
    stability (aggS S og.clusters) mp = stability S p' := by
  classical
  rw [stability_pair _ _ hmp.1, stability_pair _ _ hp'.1]
  obtain ⟨lab, hlab⟩ := exists_lab hog.1
  have key := blockSum_lab S hog.1 lab hlab
    (fun a b x => if Together mp.clusters a b then x else 0) (by
    intro a b s f
    split
    · rfl
    · simp)
  unfold pairStability
  rw [hn, hnum]
  unfold aggS
  rw [key]
  apply Finset.sum_congr rfl
  intro i hi
  apply Finset.sum_congr rfl
  intro j hj
  have := htog i j _ _ (hlab i (Finset.mem_range.1 hi)) (hlab j (Finset.mem_range.1 hj))
  by_cases h : Together mp.clusters (lab i) (lab j)
  · rw [if_pos h, if_pos (this.2 h)]
  · rw [if_neg h, if_neg (fun h' => h (this.1 h'))]

/-- The default partition: node `v` alone at position `v`. -/
theorem singletons_at (n i v : Nat) : At (singletons n) i v ↔ i < n ∧ v = i := by
  unfold At singletons
  by_cases hi : i < n <;> simp [hi]

theorem mk'_none (n : Nat) (check : Bool) : ∃ p, mk' n .none check = .ok p ∧ Consistent p ∧
    p.numNodes = n ∧ p.clusters = singletons n := by
  obtain ⟨p, h1, h2, h3⟩ := mk'_ok n .none check trivial
  refine ⟨p, h1, h2, h3, ?_⟩
  have h4 : (singletons n).filter (fun c => decide (0 < c.card)) = singletons n := by
    rw [List.filter_eq_self]
    intro c hc
    unfold singletons at hc
    obtain ⟨v, _, rfl⟩ := List.mem_map.1 hc
    simp
  unfold mk' at h1
  simp only at h1
  split at h1
  · split at h1
    · simp at h1
    · injection h1 with h1
      rw [← h1]
      exact h4
  · injection h1 with h1
    rw [← h1]
    exact h4

theorem singletons_nonempty (n : Nat) : ∀ c ∈ singletons n, c.Nonempty := by
  intro c hc
  unfold singletons at hc
  obtain ⟨v, _, rfl⟩ := List.mem_map.1 hc
  exact ⟨v, by simp⟩

theorem together_singletons (n u v : Nat) : Together (singletons n) u v ↔ u = v ∧ u < n := by
  constructor
  · rintro ⟨i, hu, hv⟩
    have h1 := (singletons_at n i u).1 hu
    have h2 := (singletons_at n i v).1 hv
    omega
  · rintro ⟨rfl, hu⟩
    exact ⟨u, (singletons_at n u u).2 ⟨hu, rfl⟩, (singletons_at n u u).2 ⟨hu, rfl⟩⟩

/-- Keeping every meta node alone gives back the same stability. -/
theorem stability_agg_singletons (S : Nat → Nat → K) {og mp : Part} (hog : Consistent og)
    (hmp : Consistent mp) (hn : mp.numNodes = og.clusters.length)
    (hs : mp.clusters = singletons og.clusters.length) :
    stability (aggS S og.clusters) mp = stability S og := by
  apply stability_induced S hog hmp hn hog rfl
  intro u v s t hu hv
  rw [hs, together_singletons]
  constructor
  · rintro ⟨i, h1, h2⟩
    have e1 := hog.1.disj u i s h1 hu
    have e2 := hog.1.disj v i t h2 hv
    exact ⟨by omega, by subst e1; exact at_lt h1⟩
  · rintro ⟨rfl, _⟩
    exact ⟨s, hu, hv⟩

theorem aggregate_ok (T S : Nat → Nat → K) {p : Part} {mc : Clu K} (h : aggregate T S p = .ok mc) :
    mc.S = aggS S p.clusters ∧ mc.n = p.clusters.length ∧ Consistent mc.part ∧
      mc.part.numNodes = p.clusters.length ∧ mc.part.clusters = singletons p.clusters.length := by
  unfold aggregate at h
  dsimp only at h
  split at h
  · simp at h
  · unfold mkClu at h
    obtain ⟨q, hq, h1, h2, h3⟩ := mk'_none p.clusters.length false
    rw [hq] at h
    split at h
    · injection h with h
      subst h
      exact ⟨rfl, rfl, h1, h2, h3⟩
    · simp at h

/-- The meta loop keeps the object's partition valid and never lowers its stability. -/
theorem metaLoop_spec (sc : Sched) (par : Params K) (T S : Nat → Nat → K) (steps k0 : Nat)
    (delta : K) (stop : Bool) (self : Part) (mc : Clu K) (hself : Consistent self)
    (hpos : 0 < self.numNodes) (hne : ∀ c ∈ self.clusters, c.Nonempty)
    (hinv : stop = true ∨ (Consistent mc.part ∧ mc.part.numNodes = mc.n ∧
      mc.n = self.clusters.length ∧ (∀ p : Part, p.numNodes = mc.n → Consistent p →
        stability mc.S p = stability (aggS S self.clusters) p) ∧
      stability mc.S mc.part = stability S self))
    (k : Nat) (p : Part)
    (hres : metaLoop sc par T S steps k0 delta stop self mc = .ok (k, p)) :
    Consistent p ∧ p.numNodes = self.numNodes ∧ stability S self ≤ stability S p ∧
      (∀ c ∈ p.clusters, c.Nonempty) := by
  induction steps generalizing k0 delta stop self mc with
  | zero => simp [metaLoop] at hres
  | succ steps ih =>
    simp only [metaLoop] at hres
    split at hres
    · injection hres with hres
      simp only [Prod.mk.injEq] at hres
      obtain ⟨_, rfl⟩ := hres
      exact ⟨hself, rfl, le_refl _, hne⟩
    · rename_i hcond
      have hstop : stop ≠ true := fun h => hcond (Or.inr (Or.inl h))
      obtain ⟨hmc, hmn, hlen, hS, hst⟩ := hinv.resolve_left hstop
      split at hres
      · simp at hres
      · rename_i d nl mp hmove
        unfold moveNodes at hmove
        rw [← hmn] at hmove
        obtain ⟨g, k', p1, h1, h2, h3, h4, h5, h6⟩ := moveLoop_spec sc (k0 + 1) par.thr par.nSub mc.S mc.T
          (par.nSub + 1) 1 1 0 hmc (by omega)
        rw [h1] at hmove
        injection hmove with hmove
        simp only [Prod.mk.injEq] at hmove
        obtain ⟨hd, _, rfl⟩ := hmove
        have hp1n : p1.numNodes = self.clusters.length := by rw [h3, hmn, hlen]
        obtain ⟨self', h7, h8, h9, h10, h11⟩ := updatePart_spec hself hne h2 hp1n hpos
        rw [h7] at hres
        simp only at hres
        have hst' : stability S self' = stability S self + g := by
          rw [← stability_induced S hself h2 hp1n h8 h9 h11,
            ← hS p1 (by rw [h3, hmn]) h2, h5, hst]
        have hle : stability S self ≤ stability S self' := by rw [hst']; linarith
        split at hres
        · obtain ⟨a, b, c, e⟩ := ih _ _ _ self' _ h8 (by omega) h10 (Or.inl rfl) hres
          exact ⟨a, b.trans h9, le_trans hle c, e⟩
        · split at hres
          · simp at hres
          · rename_i mc' hagg
            obtain ⟨e1, e2, e3, e4, e5⟩ := aggregate_ok T S hagg
            obtain ⟨a, b, c, e⟩ := ih _ _ _ self' mc' h8 (by omega) h10 (Or.inr
              ⟨e3, by rw [e4, e2], e2, fun p _ _ => by rw [e1],
                by rw [e1]; exact stability_agg_singletons S h8 e3 e4 e5⟩) hres
            exact ⟨a, b.trans h9, le_trans hle c, e⟩

/-- The gain of the first phase is kept. -/
theorem metaLoop_first (sc : Sched) (par : Params K) (T S : Nat → Nat → K) (steps k0 : Nat)
    (delta : K) (self : Part) (mc : Clu K) (hself : Consistent self)
    (hpos : 0 < self.numNodes) (hne : ∀ c ∈ self.clusters, c.Nonempty)
    (hmc : Consistent mc.part) (hmn : mc.part.numNodes = mc.n) (hlen : mc.n = self.clusters.length)
    (hS : ∀ p : Part, p.numNodes = mc.n → Consistent p →
        stability mc.S p = stability (aggS S self.clusters) p)
    (hst : stability mc.S mc.part = stability S self)
    (hdelta : par.thr < delta) (hk0 : k0 ≤ par.nMeta) (gain : K) (nl : Nat) (mp : Part)
    (hmove : moveNodes sc (k0 + 1) par.thr par.nSub mc (par.nSub + 1) = .ok (gain, nl, mp))
    (k : Nat) (p : Part)
    (hres : metaLoop sc par T S (steps + 1) k0 delta false self mc = .ok (k, p)) :
    stability S self + gain ≤ stability S p := by
  simp only [metaLoop] at hres
  rw [if_neg (by
    rintro (h | h | h)
    · exact absurd h (not_le.2 hdelta)
    · simp at h
    · omega), hmove] at hres
  simp only at hres
  unfold moveNodes at hmove
  rw [← hmn] at hmove
  obtain ⟨g, k', p1, h1, h2, h3, h4, h5, h6⟩ := moveLoop_spec sc (k0 + 1) par.thr par.nSub mc.S mc.T
    (par.nSub + 1) 1 1 0 hmc (by omega)
  rw [h1] at hmove
  injection hmove with hmove
  simp only [Prod.mk.injEq] at hmove
  obtain ⟨hd, _, rfl⟩ := hmove
  have hp1n : p1.numNodes = self.clusters.length := by rw [h3, hmn, hlen]
  obtain ⟨self', h7, h8, h9, h10, h11⟩ := updatePart_spec hself hne h2 hp1n hpos
  rw [h7] at hres
  simp only at hres
  have hst' : stability S self' = stability S self + g := by
    rw [← stability_induced S hself h2 hp1n h8 h9 h11, ← hS p1 (by rw [h3, hmn]) h2, h5, hst]
  rw [← hd, zero_add, ← hst']
  split at hres
  · exact (metaLoop_spec _ _ _ _ _ _ _ _ self' _ h8 (by omega) h10 (Or.inl rfl) _ _ hres).2.2.1
  · split at hres
    · simp at hres
    · rename_i mc' hagg
      obtain ⟨e1, e2, e3, e4, e5⟩ := aggregate_ok T S hagg
      exact (metaLoop_spec _ _ _ _ _ _ _ _ self' mc' h8 (by omega) h10 (Or.inr
        ⟨e3, by rw [e4, e2], e2, fun p _ _ => by rw [e1],
          by rw [e1]; exact stability_agg_singletons S h8 e3 e4 e5⟩) _ _ hres).2.2.1

/-- Rows of the aggregated transition matrix. -/
theorem rowSum_agg (T : Nat → Nat → K) {p : Part} (h : Consistent p) (s : Nat) :
    rowSum p.clusters.length (aggS T p.clusters) s
      = ∑ i ∈ p.clusters.getD s ∅, rowSum p.numNodes T i := by
  obtain ⟨lab, hlab⟩ := exists_lab h.1
  unfold rowSum aggS blockSum
  rw [Finset.sum_comm]
  apply Finset.sum_congr rfl
  intro i _
  exact sum_clusters h.1 lab hlab (fun _ j => T i j)

theorem isclose_self (a : K) : isclose a a := by
  unfold isclose
  rw [sub_self, abs_zero]
  positivity

theorem aggregate_total (T S : Nat → Nat → K) {p : Part} (h : Consistent p)
    (hne : ∀ c ∈ p.clusters, c.Nonempty) (hT : ∀ i < p.numNodes, 0 < rowSum p.numNodes T i) :
    ∃ mc, aggregate T S p = .ok mc := by
  have hrow : ∀ s < p.clusters.length, 0 < rowSum p.clusters.length (aggS T p.clusters) s := by
    intro s hs
    rw [rowSum_agg T h]
    have hmem : p.clusters.getD s ∅ ∈ p.clusters := by
      rw [List.getD_eq_getElem?_getD]
      simp [hs]
    apply Finset.sum_pos
    · intro i hi
      exact hT i (at_lt_n h.1 (at_getD.1 hi))
    · exact hne _ hmem
  unfold aggregate
  dsimp only
  rw [if_neg]
  · unfold mkClu
    rw [if_pos]
    · obtain ⟨q, hq, _⟩ := mk'_none p.clusters.length false
      rw [hq]
      exact ⟨_, rfl⟩
    · intro s hs
      left
      have : rowSum p.clusters.length (fun s t => aggS T p.clusters s t
          / rowSum p.clusters.length (aggS T p.clusters) s) s = 1 := by
        have h0 := (hrow s hs).ne'
        unfold rowSum at h0 ⊢
        rw [← Finset.sum_div, div_self h0]
      rw [this]
      exact isclose_self 1
  · rintro ⟨s, hs, h0⟩
    exact (hrow s (Finset.mem_range.1 hs)).ne' h0

theorem metaLoop_total (sc : Sched) (par : Params K) (T S : Nat → Nat → K) (steps k0 : Nat)
    (delta : K) (stop : Bool) (self : Part) (mc : Clu K) (hself : Consistent self)
    (hpos : 0 < self.numNodes) (hne : ∀ c ∈ self.clusters, c.Nonempty)
    (hinv : stop = true ∨ (Consistent mc.part ∧ mc.part.numNodes = mc.n ∧
      mc.n = self.clusters.length))
    (hT : ∀ i < self.numNodes, 0 < rowSum self.numNodes T i)
    (hsteps : par.nMeta + 1 - k0 < steps) :
    ∃ k p, metaLoop sc par T S steps k0 delta stop self mc = .ok (k, p) := by
  induction steps generalizing k0 delta stop self mc with
  | zero => omega
  | succ steps ih =>
    simp only [metaLoop]
    split
    · exact ⟨_, _, rfl⟩
    · rename_i hcond
      have hstop : stop ≠ true := fun h => hcond (Or.inr (Or.inl h))
      have hk0 : ¬ par.nMeta < k0 := fun h => hcond (Or.inr (Or.inr h))
      obtain ⟨hmc, hmn, hlen⟩ := hinv.resolve_left hstop
      obtain ⟨g, k', p1, h1, h2, h3, h4, h5, h6⟩ := moveLoop_spec sc (k0 + 1) par.thr par.nSub mc.S mc.T
        (par.nSub + 1) 1 1 0 hmc (by omega)
      have hmove : moveNodes sc (k0 + 1) par.thr par.nSub mc (par.nSub + 1) = .ok (0 + g, k', p1) := by
        unfold moveNodes
        rw [← hmn]
        exact h1
      rw [hmove]
      simp only
      have hp1n : p1.numNodes = self.clusters.length := by rw [h3, hmn, hlen]
      obtain ⟨self', h7, h8, h9, h10, h11⟩ := updatePart_spec hself hne h2 hp1n hpos
      rw [h7]
      simp only
      have hT' : ∀ i < self'.numNodes, 0 < rowSum self'.numNodes T i := by rw [h9]; exact hT
      split
      · exact ih _ _ _ self' _ h8 (by omega) h10 (Or.inl rfl) hT' (by omega)
      · obtain ⟨mc', hagg⟩ := aggregate_total T S h8 h10 hT'
        rw [hagg]
        simp only
        obtain ⟨e1, e2, e3, e4, e5⟩ := aggregate_ok T S hagg
        exact ih _ _ _ self' mc' h8 (by omega) h10 (Or.inr ⟨e3, by rw [e4, e2], e2⟩) hT' (by omega)

theorem mk'_clusterList (n : Nat) (cl : List (Finset Nat)) :
    mk' n (.clusterList cl) false
      = .ok (removeEmpty { numNodes := n, clusters := cl, dict := dictOf cl }) := by
  simp [mk']

theorem stability_congr (S S' : Nat → Nat → K) {p : Part} (h : IsPartition p.numNodes p.clusters)
    (hS : ∀ i < p.numNodes, ∀ j < p.numNodes, S i j = S' i j) : stability S p = stability S' p := by
  classical
  rw [stability_pair _ _ h, stability_pair _ _ h]
  unfold pairStability
  apply Finset.sum_congr rfl
  intro i hi
  apply Finset.sum_congr rfl
  intro j hj
  rw [hS i (Finset.mem_range.1 hi) j (Finset.mem_range.1 hj)]

theorem aggS_singletons (S : Nat → Nat → K) (n i j : Nat) (hi : i < n) (hj : j < n) :
    aggS S (singletons n) i j = S i j := by
  unfold aggS blockSum singletons
  simp [List.getD_eq_getElem?_getD, hi, hj]

/-! ### no loop of the model runs out of steps -/

theorem mk'_steps (n : Nat) (arg : Arg) (check : Bool) : mk' n arg check ≠ .error .outOfSteps := by
  have hci : ∀ p : Part, checkIntegrity p ≠ .error .outOfSteps := by
    intro p
    unfold checkIntegrity
    dsimp only
    split
    · simp
    · split <;> simp
  have hadd : ∀ items cl, addItems items cl ≠ .error .outOfSteps := by
    intro items
    induction items with
    | nil => simp [addItems]
    | cons a items ih =>
      intro cl
      simp only [addItems]
      split
      · simp
      · exact ih _
  have fin : ∀ cl, (if check then
        match checkIntegrity (removeEmpty { numNodes := n, clusters := cl, dict := dictOf cl }) with
        | .error e => .error e
        | .ok () => .ok (removeEmpty { numNodes := n, clusters := cl, dict := dictOf cl })
      else .ok (removeEmpty { numNodes := n, clusters := cl, dict := dictOf cl }) : Except Err Part)
      ≠ .error .outOfSteps := by
    intro cl
    split
    · split
      · rename_i e he
        intro h
        rw [Except.error.injEq] at h
        subst h
        exact hci _ he
      · simp
    · simp
  cases arg with
  | none => exact fin _
  | clusterList cl => exact fin cl
  | both => simp [mk']
  | nodeDict items =>
    unfold mk'
    simp only
    split
    · simp
    · split
      · rename_i e he
        intro h
        rw [Except.error.injEq] at h
        subst h
        exact hadd _ _ he
      · exact fin _

theorem mkClu_steps (n : Nat) (T S : Nat → Nat → K) (arg : Arg) :
    mkClu n T S arg ≠ .error .outOfSteps := by
  unfold mkClu
  have := mk'_steps n arg false
  split
  · split
    · rename_i e he
      intro h
      rw [Except.error.injEq] at h
      subst h
      exact this he
    · simp
  · simp

theorem updatePart_steps (og mp : Part) : updatePart og mp ≠ .error .outOfSteps := by
  have hu : ∀ (md : Nat → Option Int) cl i, updateItems md i cl ≠ .error .outOfSteps := by
    intro md cl
    induction cl with
    | nil => intro i; simp [updateItems]
    | cons c cs ih =>
      intro i
      simp only [updateItems]
      split
      · simp
      · split
        · rename_i e he
          intro h
          rw [Except.error.injEq] at h
          subst h
          exact ih _ he
        · simp
  unfold updatePart
  dsimp only
  split
  · rename_i e he
    intro h
    rw [Except.error.injEq] at h
    subst h
    exact hu _ _ _ he
  · exact mk'_steps _ _ _

theorem aggregate_steps (T S : Nat → Nat → K) (p : Part) : aggregate T S p ≠ .error .outOfSteps := by
  unfold aggregate
  dsimp only
  split
  · simp
  · exact mkClu_steps _ _ _ _

theorem metaLoop_steps (sc : Sched) (par : Params K) (T S : Nat → Nat → K) (steps k0 : Nat)
    (delta : K) (stop : Bool) (self : Part) (mc : Clu K) (hsteps : par.nMeta + 1 - k0 < steps) :
    metaLoop sc par T S steps k0 delta stop self mc ≠ .error .outOfSteps ∧
      ∀ k p, metaLoop sc par T S steps k0 delta stop self mc = .ok (k, p) →
        k ≤ max k0 (par.nMeta + 1) := by
  induction steps generalizing k0 delta stop self mc with
  | zero => omega
  | succ steps ih =>
    simp only [metaLoop]
    split
    · refine ⟨by simp, fun k p h => ?_⟩
      simp at h
      omega
    · rename_i hcond
      have hk0 : ¬ par.nMeta < k0 := fun h => hcond (Or.inr (Or.inr h))
      have hmv := (moveLoop_steps sc (k0 + 1) par.thr par.nSub mc.S mc.T mc.n (par.nSub + 1) 1 1 0
        mc.part (by omega)).1
      split
      · rename_i e he
        refine ⟨fun h => ?_, by simp⟩
        rw [Except.error.injEq] at h
        subst h
        exact hmv he
      · split
        · rename_i e he
          refine ⟨fun h => ?_, by simp⟩
          rw [Except.error.injEq] at h
          subst h
          exact updatePart_steps _ _ he
        · split
          · rename_i d nl mp hm _ self' hu hc
            obtain ⟨h1, h2⟩ := ih (k0 + 1) d true self' { mc with part := removeEmpty mp } (by omega)
            refine ⟨h1, fun k p h => ?_⟩
            have := h2 k p h
            omega
          · split
            · rename_i e he
              refine ⟨fun h => ?_, by simp⟩
              rw [Except.error.injEq] at h
              subst h
              exact aggregate_steps _ _ _ he
            · rename_i d nl mp hm _ self' hu hc _ mc' ha
              obtain ⟨h1, h2⟩ := ih (k0 + 1) d false self' mc' (by omega)
              refine ⟨h1, fun k p h => ?_⟩
              have := h2 k p h
              omega

/-! ### small covariance -/

theorem stability_small {n : Nat} (hn : 0 < n) (S : Nat → Nat → K) (hz : sIsZero n S) {p : Part}
    (h : Consistent p) (hp : p.numNodes = n) : |stability S p| ≤ 1 / 10 ^ 6 := by
  classical
  rw [stability_pair _ _ h.1]
  unfold pairStability
  rw [hp]
  have hn' : (0 : K) < n := by exact_mod_cast hn
  have h1 : ∀ i ∈ Finset.range n, ∀ j ∈ Finset.range n,
      |if Together p.clusters i j then S i j else 0| ≤ (1 / 10 ^ 6) / (n : K) ^ 2 := by
    intro i hi j hj
    split
    · exact le_of_lt (hz i (Finset.mem_range.1 hi) j (Finset.mem_range.1 hj))
    · rw [abs_zero]; positivity
  calc |∑ i ∈ Finset.range n, ∑ j ∈ Finset.range n, if Together p.clusters i j then S i j else 0|
      ≤ ∑ i ∈ Finset.range n, |∑ j ∈ Finset.range n, if Together p.clusters i j then S i j else 0| :=
        Finset.abs_sum_le_sum_abs _ _
    _ ≤ ∑ i ∈ Finset.range n, ∑ j ∈ Finset.range n,
          |if Together p.clusters i j then S i j else 0| :=
        Finset.sum_le_sum fun i _ => Finset.abs_sum_le_sum_abs _ _
    _ ≤ ∑ i ∈ Finset.range n, ∑ j ∈ Finset.range n, (1 / 10 ^ 6) / (n : K) ^ 2 :=
        Finset.sum_le_sum fun i hi => Finset.sum_le_sum fun j hj => h1 i hi j hj
    _ = 1 / 10 ^ 6 := by
        rw [Finset.sum_const, Finset.sum_const, Finset.card_range, nsmul_eq_mul, nsmul_eq_mul]
        field_simp

theorem isPartition_full (n : Nat) : IsPartition n [Finset.range n] := by
  intro v
  refine ⟨fun hv => ⟨0, (at_zero ..).2 (Finset.mem_range.2 hv), ?_⟩, fun hv i hi => ?_⟩
  · intro j hj
    have := at_lt hj
    simp at this
    exact this
  · cases i with
    | zero =>
      have := Finset.mem_range.1 ((at_zero ..).1 hi)
      omega
    | succ i => exact absurd ((at_succ ..).1 hi) (at_nil _ _)

end Verif.Louvain
