import Verif.Bipart.Model
import Verif.Louvain.Props

/-!
# C75: the covariance between source and target clusters
-/

set_option linter.dupNamespace false
set_option linter.unusedSectionVars false

namespace Verif.Bipart

open Verif.Partition Verif.Louvain Finset

variable {K : Type} [Field K] [LinearOrder K] [IsStrictOrderedRing K]

/-- `R` is the covariance between the clusters of the two partitions: for every source cluster
`s` and target cluster `t`, the sum of `S` over the nodes of `s` and those of `t`. -/
def Between (S : Nat → Nat → K) (src tgt : Part) (R : Nat → Nat → K) : Prop :=
  ∀ s t cs ct, src.clusters[s]? = some cs → tgt.clusters[t]? = some ct →
    R s t = ∑ i ∈ cs, ∑ j ∈ ct, S i j

/-- A matching between `ns` source and `nt` target clusters that leaves none of the smaller side
alone. -/
structure Matching (ns nt : Nat) (l : List (Nat × Nat)) : Prop where
  inRange : ∀ e ∈ l, e.1 < ns ∧ e.2 < nt
  source : (l.map (·.1)).Nodup
  target : (l.map (·.2)).Nodup
  full : l.length = min ns nt

/-- The contract of `scipy.optimize.linear_sum_assignment`: a matching of least cost. -/
def Assigns (ns nt : Nat) (assign : (Nat → Nat → K) → List (Nat × Nat)) : Prop :=
  ∀ cost, Matching ns nt (assign cost) ∧ ∀ l, Matching ns nt l →
    ((assign cost).map fun e => cost e.1 e.2).sum ≤ (l.map fun e => cost e.1 e.2).sum

theorem clustered_eq (S : Nat → Nat → K) (src tgt : Part) (s t : Nat) :
    clustered S src tgt s t = blockSum S (src.clusters.getD s ∅) (tgt.clusters.getD t ∅) := by
  unfold clustered blockSum
  split
  · split
    · rfl
    · rename_i h
      have : tgt.clusters.getD t ∅ = ∅ := by
        rw [← Finset.card_eq_zero]; omega
      rw [this]; simp
  · rename_i h
    have : src.clusters.getD s ∅ = ∅ := by
      rw [← Finset.card_eq_zero]; omega
    rw [this]; simp

theorem addAt_eq (R : Nat → Nat → K) (a b : Nat) (x : K) (i j : Nat) :
    addAt R a b x i j = R i j + if i = a ∧ j = b then x else 0 := by
  unfold addAt
  split <;> simp

theorem addColumn_eq (R : Nat → Nat → K) (ns c : Nat) (x : Nat → K) (i j : Nat) :
    addColumn R ns c x i j = R i j + if i < ns ∧ j = c then x i else 0 := by
  unfold addColumn
  induction ns with
  | zero => simp
  | succ n ih =>
    rw [List.range_succ, List.foldl_append]
    simp only [List.foldl_cons, List.foldl_nil]
    rw [addAt_eq, ih]
    by_cases h : i = n ∧ j = c
    · obtain ⟨rfl, rfl⟩ := h
      simp
    · rw [if_neg h, add_zero]
      by_cases h2 : i < n ∧ j = c
      · rw [if_pos h2, if_pos ⟨by omega, h2.2⟩]
      · rw [if_neg h2, if_neg]
        rintro ⟨h3, h4⟩
        by_cases h5 : i = n
        · exact h ⟨h5, h4⟩
        · exact h2 ⟨by omega, h4⟩

theorem addRow_eq (R : Nat → Nat → K) (nt c : Nat) (x : Nat → K) (i j : Nat) :
    addRow R nt c x i j = R i j + if i = c ∧ j < nt then x j else 0 := by
  unfold addRow
  induction nt with
  | zero => simp
  | succ n ih =>
    rw [List.range_succ, List.foldl_append]
    simp only [List.foldl_cons, List.foldl_nil]
    rw [addAt_eq, ih]
    by_cases h : i = c ∧ j = n
    · obtain ⟨rfl, rfl⟩ := h
      simp
    · rw [if_neg h, add_zero]
      by_cases h2 : i = c ∧ j < n
      · rw [if_pos h2, if_pos ⟨h2.1, by omega⟩]
      · rw [if_neg h2, if_neg]
        rintro ⟨h3, h4⟩
        by_cases h5 : j = n
        · exact h ⟨h3, h5⟩
        · exact h2 ⟨h3, by omega⟩

/-- A sum over a cluster that may hold `k`. -/
theorem sum_split {p : Part} (h : Consistent p) {k ci : Nat} (hk : At p.clusters ci k) (s : Nat)
    (f : Nat → K) :
    ∑ i ∈ p.clusters.getD s ∅, f i =
      ∑ i ∈ (p.clusters.getD s ∅).erase k, f i + if s = ci then f k else 0 := by
  by_cases hs : s = ci
  · subst hs
    rw [if_pos rfl, Finset.sum_erase_add]
    exact (at_iff_getD ..).1 hk
  · rw [if_neg hs, add_zero, Finset.erase_eq_of_notMem]
    intro hmem
    exact hs (h.1.disj k s ci ((at_iff_getD ..).2 hmem) hk)

/-- The clusters after a move. -/
theorem sum_moved {p : Part} (h : Consistent p) {k ci cf : Nat} (hk : At p.clusters ci k)
    (hcf : cf < p.clusters.length) (s : Nat) (f : Nat → K) :
    ∑ i ∈ (moveNode p k cf).2.clusters.getD s ∅, f i =
      ∑ i ∈ (p.clusters.getD s ∅).erase k, f i + if s = cf then f k else 0 := by
  have hd : p.dict k = some (ci : Int) := (h.2 k ci).2 ⟨ci, rfl, hk⟩
  have hc : Consistent (moveNode p k cf).2 :=
    consistent_move (v := k) h (cf := (cf : Int)) (by omega) (by omega)
  have hmem : ∀ u, u ∈ (moveNode p k cf).2.clusters.getD s ∅ ↔
      (u ≠ k ∧ u ∈ p.clusters.getD s ∅) ∨ (s = cf ∧ u = k) := by
    intro u
    by_cases hne : ci = cf
    · subst hne
      have : (moveNode p k ci).2 = p := by unfold moveNode; rw [hd]; simp
      rw [this]
      constructor
      · intro hu
        by_cases huk : u = k
        · subst huk
          exact Or.inr ⟨h.1.disj u s ci ((at_iff_getD ..).2 hu) hk, rfl⟩
        · exact Or.inl ⟨huk, hu⟩
      · rintro (⟨_, hu⟩ | ⟨rfl, rfl⟩)
        · exact hu
        · exact (at_iff_getD ..).1 hk
    · rw [moveNode_ok h hd hcf hne]
      rw [← at_iff_getD, at_move _ _ _ _ hne hcf, ← at_iff_getD]
      by_cases hs : s = cf
      · subst hs
        simp only [if_true, true_and]
        constructor
        · rintro (rfl | hu)
          · exact Or.inr rfl
          · by_cases huk : u = k
            · exact Or.inr huk
            · exact Or.inl ⟨huk, hu⟩
        · rintro (⟨_, hu⟩ | rfl)
          · exact Or.inr hu
          · exact Or.inl rfl
      · rw [if_neg hs]
        by_cases hs' : s = ci
        · rw [if_pos hs']
          simp [hs]
        · rw [if_neg hs']
          simp only [hs, false_and, or_false]
          constructor
          · intro hu
            refine ⟨?_, hu⟩
            rintro rfl
            exact hs' (h.1.disj u s ci hu hk)
          · exact fun hu => hu.2
  by_cases hs : s = cf
  · have hset : (moveNode p k cf).2.clusters.getD s ∅ = insert k ((p.clusters.getD s ∅).erase k) := by
      ext u
      rw [hmem u, Finset.mem_insert, Finset.mem_erase]
      simp only [hs, true_and]
      tauto
    rw [hset, Finset.sum_insert (by simp), if_pos hs, add_comm]
  · have hset : (moveNode p k cf).2.clusters.getD s ∅ = (p.clusters.getD s ∅).erase k := by
      ext u
      rw [hmem u, Finset.mem_erase]
      simp only [hs, false_and, or_false]
    rw [hset, if_neg hs, add_zero]

theorem between_iff {S : Nat → Nat → K} {src tgt : Part} {R : Nat → Nat → K} :
    Between S src tgt R ↔ ∀ s < src.clusters.length, ∀ t < tgt.clusters.length,
      R s t = ∑ i ∈ src.clusters.getD s ∅, ∑ j ∈ tgt.clusters.getD t ∅, S i j := by
  constructor
  · intro h s hs t ht
    rw [h s t _ _ (List.getElem?_eq_getElem hs) (List.getElem?_eq_getElem ht)]
    simp [List.getD_eq_getElem?_getD, List.getElem?_eq_getElem hs, List.getElem?_eq_getElem ht]
  · intro h s t cs ct hs ht
    obtain ⟨h1, _⟩ := List.getElem?_eq_some_iff.1 hs
    obtain ⟨h2, _⟩ := List.getElem?_eq_some_iff.1 ht
    rw [h s h1 t h2]
    simp [List.getD_eq_getElem?_getD, hs, ht]

/-- **C75.** For all partitions, also with empty clusters, the clustered covariance is the sum
over the nodes of each pair of clusters. -/
theorem C75_clustered (S : Nat → Nat → K) (src tgt : Part) :
    Between S src tgt (clustered S src tgt) := by
  rw [between_iff]
  intro s _ t _
  rw [clustered_eq]
  rfl

/-- **C75.** For every matrix, all consistent partitions, every node and all target clusters
(empty or not, the ones the node is in or others): the two updates succeed and give the
covariance between the clusters after the move. -/
theorem C75_move_exact (S : Nat → Nat → K) (src tgt : Part) (hs : Consistent src)
    (ht : Consistent tgt) (k cis cit cfs cft : Nat) (hks : At src.clusters cis k)
    (hkt : At tgt.clusters cit k) (hcfs : cfs < src.clusters.length)
    (hcft : cft < tgt.clusters.length) (Rold : Option (Nat → Nat → K))
    (hR : ∀ R, Rold = some R → Between S src tgt R) :
    ∃ R1 R2, moveOut S src tgt k cis cit Rold = .ok R1 ∧
      moveTo S src tgt k cis cit cfs cft R1 = .ok R2 ∧
      Between S (moveNode src k cfs).2 (moveNode tgt k cft).2 R2 := by
  have hcis : cis < src.clusters.length := by
    obtain ⟨c, hc, _⟩ := hks
    exact (List.getElem?_eq_some_iff.1 hc).1
  have hcit : cit < tgt.clusters.length := by
    obtain ⟨c, hc, _⟩ := hkt
    exact (List.getElem?_eq_some_iff.1 hc).1
  have hR0 : Between S src tgt (Rold.getD (clustered S src tgt)) := by
    cases hr : Rold with
    | none => exact C75_clustered S src tgt
    | some R => exact hR R hr
  rw [between_iff] at hR0
  have h1 : moveOut S src tgt k cis cit Rold = .ok (addAt (addRow (addColumn
      (Rold.getD (clustered S src tgt)) src.clusters.length cit
      fun s => -(∑ i ∈ src.clusters.getD s ∅, S i k)) tgt.clusters.length cis
      fun t => -(∑ j ∈ tgt.clusters.getD t ∅, S k j)) cis cit (S k k)) := by
    unfold moveOut
    simp only
    rw [if_neg (by omega), if_neg (by rw [not_not]; exact (at_iff_getD ..).1 hks),
      if_neg (by omega), if_neg (by rw [not_not]; exact (at_iff_getD ..).1 hkt)]
  have h2 : ∀ R, moveTo S src tgt k cis cit cfs cft R = .ok (addAt (addAt (addAt (addRow
      (addColumn R src.clusters.length cft
      fun s => ∑ i ∈ src.clusters.getD s ∅, S i k) tgt.clusters.length cfs
      fun t => ∑ j ∈ tgt.clusters.getD t ∅, S k j) cis cft (-(S k k))) cfs cit (-(S k k)))
      cfs cft (S k k)) := by
    intro R
    unfold moveTo
    simp only
    rw [if_neg (by omega)]
  refine ⟨_, _, h1, h2 _, ?_⟩
  rw [between_iff]
  intro s hs' t ht'
  have hs'' : s < src.clusters.length := by
    rw [(moveNode_numNodes src k cfs).2] at hs'; exact hs'
  have ht'' : t < tgt.clusters.length := by
    rw [(moveNode_numNodes tgt k cft).2] at ht'; exact ht'
  simp only [addAt_eq, addRow_eq, addColumn_eq, hs'', ht'', true_and, and_true]
  rw [hR0 s hs'' t ht'']
  have e1 : ∀ i, ∑ j ∈ (moveNode tgt k cft).2.clusters.getD t ∅, S i j = _ :=
    fun i => sum_moved ht hkt hcft t (fun j => S i j)
  have e2 : ∀ i, ∑ j ∈ tgt.clusters.getD t ∅, S i j = _ :=
    fun i => sum_split ht hkt t (fun j => S i j)
  simp only [e1, e2]
  rw [sum_moved hs hks hcfs s, sum_split hs hks s, sum_split hs hks s (fun i => S i k)]
  have one : ∀ (P : Prop) [Decidable P] (x : K), (if P then x else 0) = (if P then 1 else 0) * x := by
    intro P _ x; split <;> simp
  have two : ∀ (P Q : Prop) [Decidable P] [Decidable Q] (x : K), (if P ∧ Q then x else 0) =
      (if P then 1 else 0) * (if Q then 1 else 0) * x := by
    intro P Q _ _ x
    by_cases hP : P <;> by_cases hQ : Q <;> simp [hP, hQ]
  simp only [two]
  rw [one (s = cfs) (_ + _), one (s = cis) (_ + _), one (s = cis) (S k k), one (t = cft) (S k k),
    one (t = cit) (S k k), one (t = cit) (-_), one (s = cis) (-_), one (t = cft) (_ + _),
    one (s = cfs) (_ + _)]
  have e3 : ∀ i, (if t = cft then S i k else 0) = (if t = cft then 1 else 0) * S i k :=
    fun i => one _ _
  have e4 : ∀ i, (if t = cit then S i k else 0) = (if t = cit then 1 else 0) * S i k :=
    fun i => one _ _
  simp only [e3, e4, Finset.sum_add_distrib, ← Finset.mul_sum]
  ring

/-- **C75.** Without an old covariance, or with the right one, the update for leaving a pair of
clusters is refused exactly for nodes that are not in both clusters. -/
theorem C75_refused_iff (S : Nat → Nat → K) (src tgt : Part) (k cis cit : Nat)
    (hcis : cis < src.clusters.length) (hcit : cit < tgt.clusters.length)
    (Rold : Option (Nat → Nat → K)) :
    moveOut S src tgt k cis cit Rold = .error .valueError ↔
      ¬ (At src.clusters cis k ∧ At tgt.clusters cit k) := by
  unfold moveOut
  simp only
  rw [if_neg (by omega)]
  by_cases h1 : k ∈ src.clusters.getD cis ∅
  · rw [if_neg (by rw [not_not]; exact h1), if_neg (by omega)]
    by_cases h2 : k ∈ tgt.clusters.getD cit ∅
    · rw [if_neg (by rw [not_not]; exact h2)]
      simp only [reduceCtorEq, false_iff, not_not]
      exact ⟨(at_iff_getD ..).2 h1, (at_iff_getD ..).2 h2⟩
    · rw [if_pos h2]
      simp only [true_iff]
      exact fun hc => h2 ((at_iff_getD ..).1 hc.2)
  · rw [if_pos h1]
    simp only [true_iff]
    exact fun hc => h1 ((at_iff_getD ..).1 hc.1)

theorem sum_nodes {p : Part} (h : Consistent p) (f : Nat → K) :
    ∑ i ∈ range p.numNodes, f i = ∑ s ∈ range p.clusters.length, ∑ i ∈ p.clusters.getD s ∅, f i := by
  have hex : ∀ v, ∃ k, v < p.numNodes → At p.clusters k v := by
    intro v
    by_cases hv : v < p.numNodes
    · obtain ⟨k, hk, _⟩ := (h.1 v).1 hv
      exact ⟨k, fun _ => hk⟩
    · exact ⟨0, fun hc => absurd hc hv⟩
  choose lab hlab using hex
  exact (sum_clusters h.1 lab hlab fun _ i => f i).symm

/-- **C75.** When the rows of `S` sum to zero, so do those of the clustered covariance; the same
for columns. -/
theorem C75_zero_sums (S : Nat → Nat → K) (src tgt : Part) (n : Nat) (hs : Consistent src)
    (ht : Consistent tgt) (hns : src.numNodes = n) (hnt : tgt.numNodes = n)
    (hrow : ∀ i < n, ∑ j ∈ range n, S i j = 0) (hcol : ∀ j < n, ∑ i ∈ range n, S i j = 0)
    (R : Nat → Nat → K) (hR : Between S src tgt R) :
    (∀ s < src.clusters.length, ∑ t ∈ range tgt.clusters.length, R s t = 0) ∧
      ∀ t < tgt.clusters.length, ∑ s ∈ range src.clusters.length, R s t = 0 := by
  rw [between_iff] at hR
  have hmem : ∀ {p : Part}, Consistent p → ∀ s i, i ∈ p.clusters.getD s ∅ → i < p.numNodes := by
    intro p hp s i hi
    by_contra hcon
    exact (hp.1 i).2 (by omega) s ((at_iff_getD ..).2 hi)
  constructor
  · intro s hs'
    rw [Finset.sum_congr rfl fun t ht' => hR s hs' t (mem_range.1 ht'), Finset.sum_comm]
    refine Finset.sum_eq_zero fun i hi => ?_
    rw [← hrow i (by rw [← hns]; exact hmem hs s i hi), ← hnt, sum_nodes ht (fun j => S i j)]
  · intro t ht'
    rw [Finset.sum_congr rfl fun s hs' => hR s (mem_range.1 hs') t ht']
    have : ∀ s, ∑ i ∈ src.clusters.getD s ∅, ∑ j ∈ tgt.clusters.getD t ∅, S i j =
        ∑ j ∈ tgt.clusters.getD t ∅, ∑ i ∈ src.clusters.getD s ∅, S i j := fun s => Finset.sum_comm
    simp only [this]
    rw [Finset.sum_comm]
    refine Finset.sum_eq_zero fun j hj => ?_
    rw [← hcol j (by rw [← hnt]; exact hmem ht t j hj), ← hns, sum_nodes hs (fun i => S i j)]

theorem find_nodup {α : Type} (f : α → Nat) (l : List α) (hnd : (l.map f).Nodup) (a : α) (x : Nat) :
    (l.reverse.find? fun e => f e == x) = some a ↔ a ∈ l ∧ f a = x := by
  constructor
  · intro h
    refine ⟨by simpa using List.mem_of_find?_eq_some h, ?_⟩
    simpa using List.find?_some h
  · rintro ⟨ha, hx⟩
    cases hf : (l.reverse.find? fun e => f e == x) with
    | none =>
      rw [List.find?_eq_none] at hf
      exact absurd hx (by simpa using hf a (by simpa using ha))
    | some b =>
      have hb : b ∈ l := by simpa using List.mem_of_find?_eq_some hf
      have hbx : f b = x := by simpa using List.find?_some hf
      rw [List.inj_on_of_nodup_map hnd hb ha (hbx.trans hx.symm)]

/-- **C75.** With a solver that keeps its contract, the flow has the largest stability of all the
matchings of source and target clusters, the first dictionary is one of them, and the second one
is its inverse. -/
theorem C75_optimal_flow (ns nt : Nat) (assign : (Nat → Nat → K) → List (Nat × Nat))
    (ha : Assigns ns nt assign) (R : Nat → Nat → K) :
    ∃ l, Matching ns nt l ∧ (optimalFlow assign R).1 = (l.map fun e => R e.1 e.2).sum ∧
      (∀ l', Matching ns nt l' → (l'.map fun e => R e.1 e.2).sum ≤ (optimalFlow assign R).1) ∧
      (∀ s t, (optimalFlow assign R).2.1 s = some t ↔ (s, t) ∈ l) ∧
      ∀ s t, (optimalFlow assign R).2.2 t = some s ↔ (optimalFlow assign R).2.1 s = some t := by
  obtain ⟨hm, hbest⟩ := ha fun s t => 1 - R s t
  have hsum : ∀ l : List (Nat × Nat), (l.map fun e => 1 - R e.1 e.2).sum =
      (l.length : K) - (l.map fun e => R e.1 e.2).sum := by
    intro l
    induction l with
    | nil => simp
    | cons e l ih =>
      simp only [List.map_cons, List.sum_cons, ih, List.length_cons, Nat.cast_add, Nat.cast_one]
      ring
  have hmap : ∀ s t, (optimalFlow assign R).2.1 s = some t ↔
      (s, t) ∈ assign fun s t => 1 - R s t := by
    intro s t
    show ((((assign fun s t => 1 - R s t).reverse.find? fun e => e.1 == s).map (·.2)) = some t) ↔ _
    rw [Option.map_eq_some_iff]
    constructor
    · rintro ⟨a, h1, h2⟩
      obtain ⟨h3, h4⟩ := (find_nodup (fun e : Nat × Nat => e.1) _ hm.source a s).1 h1
      rw [← h2, ← h4]
      exact h3
    · intro h
      exact ⟨(s, t), (find_nodup (fun e : Nat × Nat => e.1) _ hm.source (s, t) s).2 ⟨h, rfl⟩, rfl⟩
  refine ⟨assign fun s t => 1 - R s t, hm, rfl, ?_, hmap, ?_⟩
  · intro l' hl'
    have := hbest l' hl'
    rw [hsum, hsum, hm.full, hl'.full] at this
    have h2 : (optimalFlow assign R).1 = ((assign fun s t => 1 - R s t).map fun e => R e.1 e.2).sum := rfl
    rw [h2]
    linarith
  · intro s t
    rw [hmap]
    show ((((assign fun s t => 1 - R s t).reverse.find? fun e => e.2 == t).map (·.1)) = some s) ↔ _
    rw [Option.map_eq_some_iff]
    constructor
    · rintro ⟨a, h1, h2⟩
      obtain ⟨h3, h4⟩ := (find_nodup (fun e : Nat × Nat => e.2) _ hm.target a t).1 h1
      rw [← h2, ← h4]
      exact h3
    · intro h
      exact ⟨(s, t), (find_nodup (fun e : Nat × Nat => e.2) _ hm.target (s, t) t).2 ⟨h, rfl⟩, rfl⟩

/-- **C75.** A limit of the flow: a matching that may leave clusters alone can be better, since
the covariance of clusters may be negative. -/
theorem C75_smaller_matching_better : ∃ R : Nat → Nat → ℚ, ∀ assign, Assigns 1 1 assign →
    (optimalFlow assign R).1 < (([] : List (Nat × Nat)).map fun e => R e.1 e.2).sum := by
  refine ⟨fun _ _ => -1, fun assign ha => ?_⟩
  obtain ⟨l, h1, h2, _⟩ := C75_optimal_flow 1 1 assign ha fun _ _ => -1
  rw [h2]
  have h3 := h1.full
  match l, h3 with
  | [e], _ => simp

/-- Non-vacuity for C75: a node moves between clusters that differ at the start and at the end,
into an empty one at the end. -/
example : Consistent (⟨3, [{0, 1}, {2}], dictOf [{0, 1}, {2}]⟩ : Part) ∧
    At [{0, 1}, {2}] 0 1 ∧ At [{0, 1, 2}, ∅] 0 1 ∧ 1 < [({0, 1, 2} : Finset Nat), ∅].length := by
  have hp : IsPartition 3 [{0, 1}, {2}] := by
    exact (isPartition_iff_card (by
      rintro v i ⟨c, hc, hv⟩
      have := List.mem_of_getElem? hc
      simp at this
      rcases this with rfl | rfl <;> simp at hv <;> omega)).2
      ⟨((checkIntegrity_iff ⟨3, [{0, 1}, {2}], fun _ => none⟩).1 rfl).1, rfl⟩
  exact ⟨⟨hp, fun v i => dictOf_spec _ hp.disj v i⟩, ⟨_, rfl, by simp⟩, ⟨_, rfl, by simp⟩, by decide⟩

/-- Non-vacuity for C75: there is a solver for one source and two target clusters. -/
example : ∃ assign : (Nat → Nat → ℚ) → List (Nat × Nat), Assigns 1 2 assign := by
  refine ⟨fun cost => if cost 0 0 ≤ cost 0 1 then [(0, 0)] else [(0, 1)], fun cost => ?_⟩
  have hall : ∀ l, Matching 1 2 l → l = [(0, 0)] ∨ l = [(0, 1)] := by
    intro l hl
    have := hl.full
    match l, this with
    | [(a, b)], _ =>
      have h := hl.inRange (a, b) (by simp)
      simp only at h
      obtain ⟨h1, h2⟩ := h
      have ha : a = 0 := by omega
      have hb : b = 0 ∨ b = 1 := by omega
      rcases hb with rfl | rfl <;> simp [ha]
  constructor
  · dsimp only
    split
    · exact ⟨by simp, by simp, by simp, by simp⟩
    · exact ⟨by simp, by simp, by simp, by simp⟩
  · intro l hl
    dsimp only
    rcases hall l hl with rfl | rfl
    · split
      · exact le_refl _
      · rename_i h
        simp only [List.map_cons, List.map_nil, List.sum_cons, List.sum_nil, add_zero]
        linarith
    · split
      · rename_i h
        simpa using h
      · exact le_refl _

end Verif.Bipart
