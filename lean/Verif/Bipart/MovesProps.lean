import Verif.Bipart.Moves
import Verif.Bipart.Props
import Verif.Partition.Props

/-!
# C87: the node-moving phase of every clustering class built on the base class
-/

set_option linter.dupNamespace false
set_option linter.unusedSectionVars false

namespace Verif.Bipart

open Verif.Partition Verif.Louvain Finset

variable {K : Type} [Field K] [LinearOrder K] [IsStrictOrderedRing K]

/-- The stability only reads the entries of the array. -/
def ReadsEntries (rules : Rules K) : Prop :=
  ∀ ns nt R R', (∀ s < ns, ∀ t < nt, R s t = R' s t) → rules.stab ns nt R = rules.stab ns nt R'

/-- The candidates are clusters that exist. -/
def CandidatesExist (rules : Rules K) : Prop :=
  ∀ src tgt v, ∀ c ∈ rules.cand src tgt v, c.1 < src.clusters.length ∧ c.2 < tgt.clusters.length

/-- The stability of two partitions, from the definition of the covariance between their clusters. -/
def stabOf (rules : Rules K) (S : Nat → Nat → K) (src tgt : Part) : K :=
  rules.stab src.clusters.length tgt.clusters.length fun s t =>
    ∑ i ∈ src.clusters.getD s ∅, ∑ j ∈ tgt.clusters.getD t ∅, S i j

/-- The variables agree with the partitions. -/
structure BInv (rules : Rules K) (S : Nat → Nat → K) (n : Nat) (st : BSt K) : Prop where
  src : Consistent st.src
  tgt : Consistent st.tgt
  ns : st.src.numNodes = n
  nt : st.tgt.numNodes = n
  R : Between S st.src st.tgt st.R
  stab : st.stability = stabOf rules S st.src st.tgt

theorem stab_between {rules : Rules K} (hr : ReadsEntries rules) {S : Nat → Nat → K} {src tgt : Part}
    {R : Nat → Nat → K} (hR : Between S src tgt R) :
    rules.stab src.clusters.length tgt.clusters.length R = stabOf rules S src tgt := by
  rw [between_iff] at hR
  exact hr _ _ _ _ fun s hs t ht => hR s hs t ht

theorem dict_at {p : Part} (h : Consistent p) {v : Nat} (hv : v < p.numNodes) :
    ∃ c : Nat, p.dict v = some (c : Int) ∧ At p.clusters c v := by
  obtain ⟨ci, hd, hat⟩ := h.dict_some hv
  exact ⟨ci, hd, hat⟩

/-- Stability after moving a node to a pair of clusters. -/
def stabMoved (rules : Rules K) (S : Nat → Nat → K) (src tgt : Part) (v : Nat) (c : Nat × Nat) : K :=
  stabOf rules S (moveNode src v c.1).2 (moveNode tgt v c.2).2

theorem bscan_spec {rules : Rules K} (hr : ReadsEntries rules) {S : Nat → Nat → K} {n : Nat} {st : BSt K}
    (h : BInv rules S n st) {v : Nat} {ci : Nat × Nat} (hs : At st.src.clusters ci.1 v)
    (ht : At st.tgt.clusters ci.2 v) {rOut : Nat → Nat → K}
    (hOut : moveOut S st.src st.tgt v ci.1 ci.2 (some st.R) = .ok rOut) (l : List (Nat × Nat))
    (hl : ∀ c ∈ l, c.1 < st.src.clusters.length ∧ c.2 < st.tgt.clusters.length)
    (best : K) (c : Nat × Nat) (Rb : Nat → Nat → K) (hb : 0 ≤ best)
    (hc : c ≠ ci → Between S (moveNode st.src v c.1).2 (moveNode st.tgt v c.2).2 Rb ∧
      best = stabMoved rules S st.src st.tgt v c - st.stability ∧
      c.1 < st.src.clusters.length ∧ c.2 < st.tgt.clusters.length)
    (hc0 : c = ci → best = 0) :
    ∃ best' c' Rb', bscan rules S st v ci rOut l best c Rb = .ok (best', c', Rb') ∧ 0 ≤ best' ∧
      best ≤ best' ∧
      (∀ x ∈ l, x ≠ ci → stabMoved rules S st.src st.tgt v x - st.stability ≤ best') ∧
      (c' ≠ ci → Between S (moveNode st.src v c'.1).2 (moveNode st.tgt v c'.2).2 Rb' ∧
        best' = stabMoved rules S st.src st.tgt v c' - st.stability ∧
        (c'.1 < st.src.clusters.length ∧ c'.2 < st.tgt.clusters.length)) ∧
      (c' = ci → best' = 0) ∧ (c' = c ∨ c' ∈ l) := by
  induction l generalizing best c Rb with
  | nil => exact ⟨best, c, Rb, rfl, hb, le_refl _, by simp, hc, hc0, Or.inl rfl⟩
  | cons cf l ih =>
    have hl' : ∀ c ∈ l, c.1 < st.src.clusters.length ∧ c.2 < st.tgt.clusters.length :=
      fun c hc => hl c (List.mem_cons_of_mem _ hc)
    obtain ⟨h1, h2⟩ := hl cf (by simp)
    unfold bscan
    by_cases hcf : cf = ci
    · rw [if_neg (by simpa using hcf)]
      obtain ⟨b', c', R', e, k1, k2, k3, k4, k5, k6⟩ := ih hl' best c Rb hb hc hc0
      refine ⟨b', c', R', e, k1, k2, fun x hx hne => ?_, k4, k5, k6.imp id (List.mem_cons_of_mem _)⟩
      rcases List.mem_cons.1 hx with rfl | hx
      · exact absurd hcf hne
      · exact k3 x hx hne
    · rw [if_pos hcf]
      obtain ⟨R1, R2, e1, e2, hb2⟩ := C75_move_exact S st.src st.tgt h.src h.tgt v ci.1 ci.2 cf.1 cf.2 hs ht h1 h2
        (some st.R) (fun R hR => by simp only [Option.some.injEq] at hR; subst hR; exact h.R)
      rw [hOut] at e1
      simp only [Except.ok.injEq] at e1
      subst e1
      rw [e2]
      simp only
      have hlen1 := (moveNode_numNodes st.src v cf.1).2
      have hlen2 := (moveNode_numNodes st.tgt v cf.2).2
      have hd : rules.stab st.src.clusters.length st.tgt.clusters.length R2
          = stabMoved rules S st.src st.tgt v cf := by
        have := stab_between hr hb2
        rw [hlen1, hlen2] at this
        exact this
      rw [hd]
      split
      · rename_i hle
        obtain ⟨b', c', R', e, k1, k2, k3, k4, k5, k6⟩ := ih hl' _ cf R2 (hb.trans hle)
          (fun _ => ⟨hb2, rfl, h1, h2⟩) (fun h => absurd h hcf)
        refine ⟨b', c', R', e, k1, hle.trans k2, fun x hx hne => ?_, k4, k5, ?_⟩
        · rcases List.mem_cons.1 hx with rfl | hx
          · exact k2
          · exact k3 x hx hne
        · rcases k6 with rfl | k6
          · exact Or.inr (by simp)
          · exact Or.inr (List.mem_cons_of_mem _ k6)
      · rename_i hle
        obtain ⟨b', c', R', e, k1, k2, k3, k4, k5, k6⟩ := ih hl' best c Rb hb hc hc0
        refine ⟨b', c', R', e, k1, k2, fun x hx hne => ?_, k4, k5, k6.imp id (List.mem_cons_of_mem _)⟩
        rcases List.mem_cons.1 hx with rfl | hx
        · exact (le_of_lt (not_le.1 hle)).trans k2
        · exact k3 x hx hne

/-- **C87.** When a node is handled, for every subclass: it stays or goes to a candidate pair of
clusters, no other candidate would give more, and the variables agree with the partitions after it. -/
theorem C87_visit (rules : Rules K) (hr : ReadsEntries rules) (hcand : CandidatesExist rules)
    (S : Nat → Nat → K) (n : Nat) (st : BSt K) (h : BInv rules S n st) (v : Nat) (hv : v < n) :
    ∃ g st', bvisit rules S st v = .ok (g, st') ∧ BInv rules S n st' ∧ 0 ≤ g ∧
      stabOf rules S st'.src st'.tgt = stabOf rules S st.src st.tgt + g ∧
      (∀ x ∈ rules.cand st.src st.tgt v, stabMoved rules S st.src st.tgt v x
        ≤ stabOf rules S st'.src st'.tgt ∨ (At st.src.clusters x.1 v ∧ At st.tgt.clusters x.2 v)) ∧
      (st' = st ∨ ∃ c ∈ rules.cand st.src st.tgt v,
        st'.src = (moveNode st.src v c.1).2 ∧ st'.tgt = (moveNode st.tgt v c.2).2) := by
  obtain ⟨cs, hds, hats⟩ := dict_at h.src (h.ns ▸ hv)
  obtain ⟨ct, hdt, hatt⟩ := dict_at h.tgt (h.nt ▸ hv)
  have hcs : cs < st.src.clusters.length := at_lt hats
  have hct : ct < st.tgt.clusters.length := at_lt hatt
  obtain ⟨rOut, R2, e1, -, -⟩ := C75_move_exact S st.src st.tgt h.src h.tgt v cs ct cs ct hats hatt hcs hct
    (some st.R) (fun R hR => by simp only [Option.some.injEq] at hR; subst hR; exact h.R)
  obtain ⟨best, c, Rb, e, k1, -, k3, k4, k5, k6⟩ := bscan_spec hr h (ci := (cs, ct)) hats hatt e1
    (rules.cand st.src st.tgt v) (hcand _ _ v) 0 (cs, ct) st.R (le_refl _) (fun h => absurd rfl h) (fun _ => rfl)
  have hvis : bvisit rules S st v = if c ≠ (cs, ct) then
        match moveNode st.src v c.1, moveNode st.tgt v c.2 with
        | (none, src'), (none, tgt') => .ok (best, ⟨src', tgt', Rb, st.stability + best⟩)
        | (some e, _), _ => .error e
        | _, (some e, _) => .error e
      else .ok (0, st) := by
    unfold bvisit
    simp only [hds, hdt, Int.toNat_natCast, e1, e] <;> rfl
  rw [hvis]
  by_cases hcc : c = (cs, ct)
  · rw [if_neg (by simpa using hcc)]
    refine ⟨0, st, rfl, h, le_refl _, by rw [add_zero], fun x hx => ?_, Or.inl rfl⟩
    by_cases hxc : x = (cs, ct)
    · right; subst hxc; exact ⟨hats, hatt⟩
    · left
      have := k3 x hx hxc
      rw [k5 hcc, h.stab] at this
      linarith
  · rw [if_pos hcc]
    obtain ⟨b1, b2, b3, b4⟩ := k4 hcc
    have m1 := (C23_move_effect st.src h.src v c.1 (h.ns ▸ hv) b3).1
    have m2 := (C23_move_effect st.tgt h.tgt v c.2 (h.nt ▸ hv) b4).1
    have hm1 : moveNode st.src v c.1 = (none, (moveNode st.src v c.1).2) := by rw [← m1]
    have hm2 : moveNode st.tgt v c.2 = (none, (moveNode st.tgt v c.2).2) := by rw [← m2]
    have hst : stabOf rules S (moveNode st.src v c.1).2 (moveNode st.tgt v c.2).2
        = stabOf rules S st.src st.tgt + best := by
      rw [b2, h.stab]
      unfold stabMoved
      ring
    refine ⟨best, ⟨(moveNode st.src v c.1).2, (moveNode st.tgt v c.2).2, Rb, st.stability + best⟩, ?_,
      ⟨consistent_move h.src (by omega) (by omega), consistent_move h.tgt (by omega) (by omega),
        (moveNode_numNodes ..).1.trans h.ns, (moveNode_numNodes ..).1.trans h.nt, b1, ?_⟩, k1, hst,
      fun x hx => ?_, Or.inr ⟨c, ?_, rfl, rfl⟩⟩
    · rw [hm1, hm2]
    · simp only [hst, h.stab]
    · by_cases hxc : x = (cs, ct)
      · right; subst hxc; exact ⟨hats, hatt⟩
      · left
        have := k3 x hx hxc
        rw [h.stab] at this
        simp only [hst]
        linarith
    · rcases k6 with h | h
      · exact absurd h hcc
      · exact h

theorem bsweep_spec {rules : Rules K} (hr : ReadsEntries rules) (hcand : CandidatesExist rules)
    {S : Nat → Nat → K} {n : Nat} (l : List Nat) (hl : ∀ v ∈ l, v < n) (d : K) (st : BSt K)
    (h : BInv rules S n st) :
    ∃ d' st', bsweep rules S l d st = .ok (d', st') ∧ BInv rules S n st' ∧ d ≤ d' ∧
      stabOf rules S st'.src st'.tgt = stabOf rules S st.src st.tgt + (d' - d) := by
  induction l generalizing d st with
  | nil => exact ⟨d, st, rfl, h, le_refl _, by ring⟩
  | cons v l ih =>
    obtain ⟨g, st', e, h', hg, hs, -⟩ := C87_visit rules hr hcand S n st h v (hl v (by simp))
    obtain ⟨d', st'', e', h'', hd, hs'⟩ := ih (fun v hv => hl v (List.mem_cons_of_mem _ hv)) (d + g) st' h'
    refine ⟨d', st'', ?_, h'', by linarith, by rw [hs', hs]; ring⟩
    unfold bsweep
    rw [e]
    exact e'

theorem bloop_spec {rules : Rules K} (hr : ReadsEntries rules) (hcand : CandidatesExist rules)
    {S : Nat → Nat → K} {n : Nat} {order : Nat → List Nat} (ho : ∀ k, ∀ v ∈ order k, v < n) (thr : K)
    (nSub : Nat) (steps nLoop : Nat) (hsteps : nSub < nLoop + steps) (hst : 0 < steps) (dLoop dTot : K)
    (st : BSt K) (h : BInv rules S n st) :
    ∃ d k st', bloop rules S order thr nSub steps nLoop dLoop dTot st
        = .ok (d, k, removeEmpty st'.src, removeEmpty st'.tgt) ∧ BInv rules S n st' ∧ dTot ≤ d ∧
      stabOf rules S st'.src st'.tgt = stabOf rules S st.src st.tgt + (d - dTot) ∧
      nLoop ≤ k ∧ (k ≤ nSub ∨ k = nLoop) := by
  induction steps generalizing nLoop dLoop dTot st with
  | zero => omega
  | succ steps ih =>
    unfold bloop
    split
    · rename_i hc
      obtain ⟨d, st', e, h', hd, hs⟩ := bsweep_spec hr hcand (order nLoop) (ho nLoop) 0 st h
      rw [e]
      simp only
      obtain ⟨d', k, st'', e', h'', hd', hs', hk, hk'⟩ := ih (nLoop + 1) (by omega) (by omega) d (dTot + d) st' h'
      refine ⟨d', k, st'', e', h'', by linarith, by rw [hs', hs]; ring, by omega, Or.inl ?_⟩
      rcases hk' with hk' | hk' <;> omega
    · exact ⟨dTot, nLoop, st, rfl, h, le_refl _, by ring, le_refl _, Or.inr rfl⟩

/-- **C87.** For every clustering class built on the base class (every stability of a clustered
covariance, every rule for the candidates), every covariance, all partitions and all node orders: the
node-moving phase ends, after less than `n_sub_iter_max` rounds; both partitions are partitions of all
the nodes; the gain it reports is not negative and is exactly the difference between the stability of
the partitions it reached and those it started from (before empty clusters are removed). -/
theorem C87_moves_exact (rules : Rules K) (hr : ReadsEntries rules) (hcand : CandidatesExist rules)
    (S : Nat → Nat → K) (n : Nat) (src tgt : Part) (hs : Consistent src) (ht : Consistent tgt)
    (hns : src.numNodes = n) (hnt : tgt.numNodes = n) (order : Nat → List Nat)
    (ho : ∀ k, (order k).Perm (List.range n)) (thr : K) (nSub : Nat) :
    ∃ d k src' tgt', bmoveNodes rules S order thr nSub (nSub + 1) src tgt
        = .ok (d, k, removeEmpty src', removeEmpty tgt') ∧
      Consistent src' ∧ Consistent tgt' ∧ src'.numNodes = n ∧ tgt'.numNodes = n ∧
      Consistent (removeEmpty src') ∧ Consistent (removeEmpty tgt') ∧
      0 ≤ d ∧ stabOf rules S src' tgt' = stabOf rules S src tgt + d ∧ 1 ≤ k ∧ (k ≤ nSub ∨ k = 1) := by
  obtain ⟨d, k, st', e, h', hd, hst, hk, hk'⟩ := bloop_spec hr hcand (S := S) (n := n) (order := order)
    (fun k v hv => List.mem_range.1 ((ho k).mem_iff.1 hv)) thr nSub (nSub + 1) 1 (by omega) (by omega) 1 0
    ⟨src, tgt, clustered S src tgt, rules.stab src.clusters.length tgt.clusters.length (clustered S src tgt)⟩
    ⟨hs, ht, hns, hnt, C75_clustered S src tgt, stab_between hr (C75_clustered S src tgt)⟩
  exact ⟨d, k, st'.src, st'.tgt, e, h'.src, h'.tgt, h'.ns, h'.nt, consistent_removeEmpty h'.src.1,
    consistent_removeEmpty h'.tgt.1, hd, by simpa using hst, hk, hk'⟩

/-- Hypotheses of C87: the trace as stability, all pairs of equal numbers as candidates. -/
example : ReadsEntries (K := ℚ) ⟨fun ns nt R => ∑ i ∈ range (min ns nt), R i i,
      fun src tgt _ => (List.range (min src.clusters.length tgt.clusters.length)).map fun i => (i, i)⟩ ∧
    CandidatesExist (K := ℚ) ⟨fun ns nt R => ∑ i ∈ range (min ns nt), R i i,
      fun src tgt _ => (List.range (min src.clusters.length tgt.clusters.length)).map fun i => (i, i)⟩ := by
  refine ⟨fun ns nt R R' h => ?_, fun src tgt v c hc => ?_⟩
  · dsimp only
    refine Finset.sum_congr rfl fun i hi => ?_
    have := mem_range.1 hi
    exact h i (by omega) i (by omega)
  · simp only [List.mem_map, List.mem_range] at hc
    obtain ⟨i, hi, rfl⟩ := hc
    constructor <;> simp only <;> omega

/-! ## Aggregation -/

/-- **C87.** The aggregated arrays describe the clusters: `S` is the covariance between them, so the
stability of the meta nodes is that of the clusters; the rows of `T` and the densities sum to one, where
these are not zero. -/
theorem C87_aggregated (rules : Rules K) (hr : ReadsEntries rules) (T S : Nat → Nat → K) (p1 p2 : Nat → K)
    (src tgt : Part) :
    Between S src tgt (bAggregate T S p1 p2 src tgt).S ∧
    rules.stab src.clusters.length tgt.clusters.length (bAggregate T S p1 p2 src tgt).S
      = stabOf rules S src tgt ∧
    (∀ s, (∑ t ∈ range tgt.clusters.length, ∑ i ∈ src.clusters.getD s ∅, ∑ j ∈ tgt.clusters.getD t ∅, T i j) ≠ 0 →
      ∑ t ∈ range tgt.clusters.length, (bAggregate T S p1 p2 src tgt).T s t = 1) ∧
    (Consistent src → ∑ i ∈ range src.numNodes, p1 i ≠ 0 →
      ∑ s ∈ range src.clusters.length, (bAggregate T S p1 p2 src tgt).p1 s = 1) ∧
    (Consistent tgt → ∑ i ∈ range tgt.numNodes, p2 i ≠ 0 →
      ∑ t ∈ range tgt.clusters.length, (bAggregate T S p1 p2 src tgt).p2 t = 1) := by
  have hB : Between S src tgt (bAggregate T S p1 p2 src tgt).S := by
    rw [between_iff]
    intro s _ t _
    rfl
  refine ⟨hB, stab_between hr hB, fun s hs => ?_, fun hc h => ?_, fun hc h => ?_⟩
  · simp only [bAggregate]
    rw [← Finset.sum_div]
    exact div_self hs
  · simp only [bAggregate]
    rw [← Finset.sum_div]
    exact div_self (by rw [← sum_nodes hc]; exact h)
  · simp only [bAggregate]
    rw [← Finset.sum_div]
    exact div_self (by rw [← sum_nodes hc]; exact h)

theorem isclose_one : isclose (1 : K) 1 := by
  unfold isclose
  simp only [sub_self, abs_zero, abs_one, mul_one]
  positivity

/-- **C87, violated.** The next meta clustering can be constructed exactly if there are as many source
as target clusters, or one source cluster (then all but the first target cluster is ignored): otherwise
the constructor raises, although the two partitions are allowed to differ in their number of clusters. -/
theorem C87_aggregate_fails_iff_violated (T S : Nat → Nat → K) (p1 p2 : Nat → K) (src tgt : Part)
    (hrow : ∀ s < src.clusters.length, (∑ t ∈ range tgt.clusters.length,
      ∑ i ∈ src.clusters.getD s ∅, ∑ j ∈ tgt.clusters.getD t ∅, T i j) ≠ 0)
    (hs : src.clusters ≠ []) (ht : tgt.clusters ≠ []) :
    (∃ m, bConstruct (bAggregate T S p1 p2 src tgt) = .ok m) ↔
      src.clusters.length = tgt.clusters.length ∨ src.clusters.length = 1 := by
  have hlen : 0 < tgt.clusters.length := List.length_pos_iff.2 ht
  have hlen' : 0 < src.clusters.length := List.length_pos_iff.2 hs
  have hrows : ∀ s < (bAggregate T S p1 p2 src tgt).cs,
      isclose (∑ t ∈ range (bAggregate T S p1 p2 src tgt).ct, (bAggregate T S p1 p2 src tgt).T s t) 1 ∨
      isclose (∑ t ∈ range (bAggregate T S p1 p2 src tgt).ct, (bAggregate T S p1 p2 src tgt).T s t) 0 := by
    intro s hs
    left
    have h1 : ∑ t ∈ range (bAggregate T S p1 p2 src tgt).ct, (bAggregate T S p1 p2 src tgt).T s t = 1 := by
      simp only [bAggregate]
      rw [← Finset.sum_div]
      exact div_self (hrow s hs)
    rw [h1]
    exact isclose_one
  have hcs : (bAggregate T S p1 p2 src tgt).cs = src.clusters.length := rfl
  have hct : (bAggregate T S p1 p2 src tgt).ct = tgt.clusters.length := rfl
  unfold bConstruct
  by_cases h1 : src.clusters.length ≠ tgt.clusters.length ∧ src.clusters.length ≠ 1 ∧ tgt.clusters.length ≠ 1
  · rw [if_pos (by rw [hcs, hct]; exact h1)]
    constructor
    · rintro ⟨m, hm⟩; exact (nomatch hm)
    · rintro (h | h)
      · exact absurd h h1.1
      · exact absurd h h1.2.1
  · rw [if_neg (by rw [hcs, hct]; exact h1), if_neg (by rw [not_not]; exact hrows)]
    by_cases h2 : tgt.clusters.length < src.clusters.length
    · rw [if_pos (by rw [hcs, hct]; exact h2)]
      constructor
      · rintro ⟨m, hm⟩; exact (nomatch hm)
      · rintro (h | h) <;> omega
    · rw [if_neg (by rw [hcs, hct]; exact h2)]
      constructor
      · intro _
        by_contra hn
        push Not at hn
        obtain ⟨n1, n2⟩ := hn
        exact h1 ⟨n1, n2, by omega⟩
      · intro _; exact ⟨_, rfl⟩

/-- Two source clusters and three target clusters: the search cannot go on. -/
example : ¬ ∃ m, bConstruct (bAggregate (K := ℚ) (fun _ _ => 1 / 3) (fun _ _ => 0) (fun _ => 1 / 3) (fun _ => 1 / 3)
    ⟨3, [{0, 1}, {2}], dictOf [{0, 1}, {2}]⟩ ⟨3, [{0}, {1}, {2}], dictOf [{0}, {1}, {2}]⟩) = .ok m := by
  rw [C87_aggregate_fails_iff_violated _ _ _ _ _ _ (by
    intro s hs
    simp only [List.length_cons, List.length_nil] at hs
    have : s = 0 ∨ s = 1 := by omega
    rcases this with rfl | rfl <;> simp [Finset.sum_range_succ] <;> norm_num) (by simp) (by simp)]
  simp

end Verif.Bipart
