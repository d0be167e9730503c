import Verif.Rounding.Loss

/-!
# C102: sweeps that go on without improving anything
-/

set_option linter.unusedSectionVars false

namespace Verif.Rounding

open Verif.Partition Verif.Louvain

variable {K : Type} [Field K] [LinearOrder K] [IsStrictOrderedRing K] {u B : K} {ar : Arith K}

theorem stability_bound (S : Nat → Nat → K) {p : Part} (h : Consistent p) :
    |stability S p| ≤ mass p.numNodes S := by
  classical
  rw [stability_pair _ _ h.1]
  unfold pairStability mass
  refine le_trans (Finset.abs_sum_le_sum_abs _ _) (Finset.sum_le_sum fun i _ => ?_)
  refine le_trans (Finset.abs_sum_le_sum_abs _ _) (Finset.sum_le_sum fun j _ => ?_)
  split
  · exact le_rfl
  · rw [abs_zero]
    exact abs_nonneg _

/-- Largest possible computed gain. -/
def gainMax (u : K) (n : Nat) (S : Nat → Nat → K) : K := (1 + u) ^ (n ^ 2 + 2 * n + 3) * (4 * mass n S)

theorem gainMax_nonneg (hu : 0 ≤ u) (n : Nat) (S : Nat → Nat → K) : 0 ≤ gainMax u n S := by
  unfold gainMax
  have := mass_nonneg n S
  positivity

/-- A pass over the nodes: what is reported against what is gained. -/
theorem sweep_progress (hr : Rounds u B ar) (hu : 0 ≤ u) (hu1 : u ≤ 1) (cy : Bool)
    (S T : Nat → Nat → K) (n : Nat) (hB : InRange u B n S) (it : Nat → Finset Int → List Int)
    (hit : ∀ v s x, x ∈ it v s ↔ x ∈ s) (lst : Nat → Finset Nat → List Nat)
    (hnd : ∀ v c, (lst v c).Nodup) (hmem : ∀ v c w, w ∈ lst v c ↔ w ∈ c) (l : List Nat) (d : K)
    {p : Part} (h : Consistent p) (hn : p.numNodes = n) (hl : ∀ v ∈ l, v < n) (hd : 0 ≤ d)
    (hB2 : (1 + u) ^ l.length * (d + l.length * gainMax u n S) ≤ B) (d' : K) (p' : Part)
    (hres : sweep ar cy S T n it lst l d p = .ok (d', p')) :
    Consistent p' ∧ ∃ G, 0 ≤ G ∧ stability S p + G - l.length * gainError u n S ≤ stability S p' ∧
      d' ≤ (1 + u) ^ l.length * (d + G) := by
  have hε := gainError_nonneg (u := u) hu n S
  have hγ := gainMax_nonneg (u := u) hu n S
  induction l generalizing d p with
  | nil =>
    simp only [sweep, Except.ok.injEq, Prod.mk.injEq] at hres
    obtain ⟨rfl, rfl⟩ := hres
    exact ⟨h, 0, le_rfl, by simp, by simp⟩
  | cons v l ih =>
    subst hn
    have hv := hl v (by simp)
    obtain ⟨o, p1, h1, h2, h3, h4⟩ := visit_any ar cy S T h (it v) (hit v) (lst v) hv
    have hl' : ∀ w ∈ l, w < p.numNodes := fun w hw => hl w (by simp [hw])
    simp only [sweep, h1] at hres
    have hpow := one_le_pow' hu l.length
    simp only [List.length_cons, pow_succ] at hB2
    push_cast at hB2
    have hlen : (0 : K) ≤ l.length := Nat.cast_nonneg _
    rcases h4 with ⟨rfl, rfl⟩ | ⟨g, rfl, hm⟩
    · simp only at hres
      have hlg : 0 ≤ (l.length : K) * gainMax u p1.numNodes S := mul_nonneg hlen hγ
      obtain ⟨a, G, hG, h5, h6⟩ := ih d h2 h3 hl' hd (by
        have e1 : d + l.length * gainMax u p1.numNodes S
            ≤ (1 + u) * (d + (l.length + 1) * gainMax u p1.numNodes S) := by nlinarith
        calc (1 + u) ^ l.length * (d + l.length * gainMax u p1.numNodes S)
            ≤ (1 + u) ^ l.length * ((1 + u) * (d + (l.length + 1) * gainMax u p1.numNodes S)) :=
              mul_le_mul_of_nonneg_left e1 (by linarith)
          _ = (1 + u) ^ l.length * (1 + u) * (d + (l.length + 1) * gainMax u p1.numNodes S) := by ring
          _ ≤ B := hB2) hres
      refine ⟨a, G, hG, ?_, ?_⟩
      · push_cast [List.length_cons]
        nlinarith
      · refine le_trans h6 ?_
        rw [List.length_cons, pow_succ]
        have : 0 ≤ (1 + u) ^ l.length * (d + G) := mul_nonneg (by linarith) (by linarith)
        nlinarith
    · simp only at hres
      obtain ⟨e1, e2⟩ := moved_gain hr hu cy (level_zero hu (p.numNodes ^ 2) p.numNodes S)
        (inRange_le hu hB le_rfl) T (it v) (lst v) (hnd v) (hmem v) h rfl hv hm
      have e3 := abs_le.1 e1
      have b1 := abs_le.1 (stability_bound S h2)
      have b2 := abs_le.1 (stability_bound S h)
      rw [h3] at b1
      have hgm : g ≤ gainMax u p.numNodes S := by
        unfold gainMax
        have := mass_nonneg p.numNodes S
        nlinarith [e3.2, b1.2, b2.1]
      have hge : ((1 + u) ^ (p.numNodes ^ 2 + 2 * p.numNodes + 3) - 1) * (4 * mass p.numNodes S)
          = gainError u p.numNodes S := rfl
      rw [hge] at e3
      have hlg : 0 ≤ (l.length : K) * gainMax u p.numNodes S := mul_nonneg hlen hγ
      have hdg : |d| + |g| ≤ B := by
        rw [abs_of_nonneg hd, abs_of_nonneg e2]
        refine le_trans ?_ hB2
        have e4 : d + g ≤ d + (l.length + 1) * gainMax u p.numNodes S := by nlinarith
        have e5 : 1 ≤ (1 + u) ^ l.length * (1 + u) := by nlinarith
        have e6 : 0 ≤ d + (l.length + 1) * gainMax u p.numNodes S := by linarith
        nlinarith
      have hadd := abs_le.1 (hr.add d g hdg)
      rw [abs_of_nonneg (by linarith : 0 ≤ d + g)] at hadd
      have hd1 : 0 ≤ ar.add d g := by nlinarith
      have hd2 : ar.add d g ≤ (1 + u) * (d + g) := by linarith
      obtain ⟨a, G, hG, h5, h6⟩ := ih (ar.add d g) h2 h3 hl' hd1 (by
        have e7 : ar.add d g + l.length * gainMax u p.numNodes S
            ≤ (1 + u) * (d + (l.length + 1) * gainMax u p.numNodes S) := by
          have a1 := mul_nonneg hu hlg
          have a2 := mul_nonneg hu (sub_nonneg.2 hgm)
          linarith
        calc (1 + u) ^ l.length * (ar.add d g + l.length * gainMax u p.numNodes S)
            ≤ (1 + u) ^ l.length * ((1 + u) * (d + (l.length + 1) * gainMax u p.numNodes S)) :=
              mul_le_mul_of_nonneg_left e7 (by linarith)
          _ = (1 + u) ^ l.length * (1 + u) * (d + (l.length + 1) * gainMax u p.numNodes S) := by ring
          _ ≤ B := hB2) hres
      refine ⟨a, g + G, by linarith, ?_, ?_⟩
      · push_cast [List.length_cons]
        have e9 := e3.2
        linarith
      · refine le_trans h6 ?_
        have e8 : ar.add d g + G ≤ (1 + u) * (d + (g + G)) := by
          have := mul_nonneg hu hG
          linarith
        calc (1 + u) ^ l.length * (ar.add d g + G)
            ≤ (1 + u) ^ l.length * ((1 + u) * (d + (g + G))) :=
              mul_le_mul_of_nonneg_left e8 (by linarith)
          _ = (1 + u) ^ (v :: l).length * (d + (g + G)) := by rw [List.length_cons, pow_succ]; ring

/-- **C102, partial.** When the threshold is at least the rounding error of a whole sweep, a
sweep after which the phase goes on has made the partition strictly better. -/
theorem C102_progress_partial (hr : Rounds u B ar) (hu : 0 ≤ u) (hu1 : u ≤ 1) (cy : Bool)
    (sc : FSched) (m k : Nat) (S T : Nat → Nat → K) (p : Part) (h : Consistent p)
    (hB : InRange u B p.numNodes S)
    (hB2 : (1 + u) ^ p.numNodes * (p.numNodes * gainMax u p.numNodes S) ≤ B) (thr : K)
    (hthr : (1 + u) ^ p.numNodes * (p.numNodes * gainError u p.numNodes S) ≤ thr) (d : K) (p' : Part)
    (hres : sweep ar cy S T p.numNodes (sc.listing m k) (sc.nodes m k) (sc.order m k p.numNodes)
      ar.zero p = .ok (d, p')) (hgo : thr < d) :
    pairStability S p < pairStability S p' := by
  have hlen : (sc.order m k p.numNodes).length = p.numNodes := by
    rw [(sc.order_perm m k p.numNodes).length_eq, List.length_range]
  obtain ⟨h1, G, hG, h2, h3⟩ := sweep_progress hr hu hu1 cy S T p.numNodes hB (sc.listing m k)
    (sc.mem_listing m k) (sc.nodes m k) (sc.nodes_nodup m k) (sc.mem_nodes m k)
    (sc.order m k p.numNodes) ar.zero h rfl (by
      intro v hv
      exact List.mem_range.1 ((sc.order_perm m k p.numNodes).mem_iff.1 hv)) (by rw [hr.zero])
    (by rw [hlen, hr.zero, zero_add]; exact hB2) d p' hres
  rw [hlen, hr.zero, zero_add] at h3
  rw [hlen] at h2
  rw [← stability_pair _ _ h.1, ← stability_pair _ _ h1.1]
  have hpow := one_le_pow' hu p.numNodes
  have : (p.numNodes : K) * gainError u p.numNodes S < G := by
    by_contra hcon
    have := mul_le_mul_of_nonneg_left (not_lt.1 hcon) (by linarith : (0 : K) ≤ (1 + u) ^ p.numNodes)
    linarith
  linarith

/-! ### the cycle -/

/-- Node 0 is equally close to nodes 1 and 2, which repel each other.  The numbers are the
doubles next to 0.2 and 1.8. -/
def exCycS (i j : Nat) : ℚ :=
  if i = j then (if i = 0 then fl (1 / 5) else 1)
  else if i = 0 ∨ j = 0 then fl (9 / 5) else -10

/-- Node 0 is linked to nodes 1 and 2. -/
def exCycT (i j : Nat) : ℚ :=
  if i = 0 then (if j = 0 then 0 else 1 / 2) else if j = 0 then 1 else 0

/-- The partition with the given clusters. -/
def partOf (cl : List (Finset Nat)) : Part := ⟨3, cl, dictOf cl⟩

/-- Node 0 with node 1. -/
def clA : List (Finset Nat) := [∅, {0, 1}, {2}]

/-- Node 0 with node 2. -/
def clB : List (Finset Nat) := [∅, {1}, {0, 2}]

theorem consistent_of {cl : List (Finset Nat)} (h : IsPartition 3 cl) : Consistent (partOf cl) := by
  refine ⟨h, fun v i => ?_⟩
  exact dictOf_spec cl h.disj v i

/-- A valid partition is determined by its clusters. -/
theorem eq_partOf {p : Part} (h : Consistent p) (hn : p.numNodes = 3) {cl : List (Finset Nat)}
    (hc : p.clusters = cl) : p = partOf cl := by
  subst hc
  have hp : IsPartition 3 p.clusters := hn ▸ h.1
  have hd : p.dict = dictOf p.clusters := by
    funext v
    apply Option.ext
    intro i
    rw [h.2 v i, dictOf_spec p.clusters hp.disj v i]
  cases p with
  | mk n c d =>
    simp only at hn hd
    subst hn hd
    rfl

theorem part3 {cl : List (Finset Nat)} (h1 : ∀ v < 3, ∃ i < 3, v ∈ cl.getD i ∅)
    (h2 : ∀ i < 3, ∀ j < 3, i ≠ j → Disjoint (cl.getD i ∅) (cl.getD j ∅))
    (h3 : ∀ i < 3, cl.getD i ∅ ⊆ Finset.range 3) (h4 : cl.length = 3) : IsPartition 3 cl := by
  intro v
  constructor
  · intro hv
    obtain ⟨i, hi, hvi⟩ := h1 v hv
    refine ⟨i, at_getD.1 hvi, fun j hj => ?_⟩
    by_contra hne
    have := Finset.disjoint_left.1 (h2 j (h4 ▸ at_lt hj) i hi hne) (at_getD.2 hj)
    exact this hvi
  · intro hv i hi
    have := Finset.mem_range.1 (h3 i (h4 ▸ at_lt hi) (at_getD.2 hi))
    omega

theorem consA : Consistent (partOf clA) :=
  consistent_of (part3 (by decide) (by decide) (by decide) rfl)

theorem consB : Consistent (partOf clB) :=
  consistent_of (part3 (by decide) (by decide) (by decide) rfl)

/-- One sweep of the example. -/
def cycSweep (cy : Bool) (p : Part) : Except Err (ℚ × Part) :=
  sweep double cy exCycS exCycT 3 (fun _ => exListing) (fun _ => listSet) (List.range 3) 0 p

/-- Reported gain and clusters after a sweep. -/
def view (r : Except Err (ℚ × Part)) : Option (ℚ × Nat × List (Finset Nat)) :=
  match r with
  | .ok (d, p) => some (d, p.numNodes, p.clusters)
  | .error _ => none

theorem cyc_step (cy : Bool) {p : Part} {d : ℚ} {cl : List (Finset Nat)} (h : Consistent p)
    (hn : p.numNodes = 3) (hv : view (cycSweep cy p) = some (d, 3, cl)) :
    cycSweep cy p = .ok (d, partOf cl) := by
  obtain ⟨d', p', h1, h2, h3, _⟩ := sweep_any (K := ℚ) double cy exCycS exCycT 3 (fun _ => exListing)
    (fun v s x => exSched.mem_listing 0 0 v s x) (fun _ => listSet) (fun _ => 0) 0 le_rfl
    (fun _ _ _ _ _ _ _ _ => by simp) (List.range 3) 0 h hn (by simp)
  have h1' : cycSweep cy p = .ok (d', p') := h1
  rw [h1'] at hv ⊢
  simp only [view, Option.some.injEq, Prod.mk.injEq] at hv
  obtain ⟨rfl, _, hc⟩ := hv
  rw [eq_partOf h2 h3 hc]

theorem cyc_AB (cy : Bool) : cycSweep cy (partOf clA) = .ok (1 / 2 ^ 51, partOf clB) := by
  apply cyc_step cy consA rfl
  cases cy <;> decide +kernel

theorem cyc_BA (cy : Bool) : cycSweep cy (partOf clB) = .ok (1 / 2 ^ 51, partOf clA) := by
  apply cyc_step cy consB rfl
  cases cy <;> decide +kernel

theorem cyc_loop (cy : Bool) (nSub steps nLoop : Nat) (dTot : ℚ) (cl : List (Finset Nat))
    (hcl : cl = clA ∨ cl = clB) (d : ℚ) (hd : 1 / 2 ^ 52 < d) (h1 : nLoop ≤ nSub)
    (hs : nSub - nLoop < steps) :
    ∃ t cl', (cl' = clA ∨ cl' = clB) ∧
      moveLoop double cy exF 1 (1 / 2 ^ 52) nSub exCycS exCycT 3 steps nLoop d dTot (partOf cl)
        = .ok (t, nSub, removeEmpty (partOf cl')) := by
  induction steps generalizing nLoop dTot cl d with
  | zero => omega
  | succ steps ih =>
    simp only [moveLoop]
    have hlt : double.lt (1 / 2 ^ 52) d = true := by simpa [double] using hd
    by_cases hc : nLoop < nSub
    · rw [if_pos ⟨hlt, hc⟩]
      have e : ∀ p, sweep double cy exCycS exCycT 3 (exF.listing 1 nLoop) (exF.nodes 1 nLoop)
          (exF.order 1 nLoop 3) double.zero p = cycSweep cy p := fun _ => rfl
      rw [e]
      rcases hcl with rfl | rfl
      · rw [cyc_AB]
        exact ih (nLoop + 1) _ clB (Or.inr rfl) _ (by norm_num) (by omega) (by omega)
      · rw [cyc_BA]
        exact ih (nLoop + 1) _ clA (Or.inl rfl) _ (by norm_num) (by omega) (by omega)
    · rw [if_neg (fun h => hc h.2)]
      have : nLoop = nSub := by omega
      subst this
      exact ⟨dTot, cl, hcl, rfl⟩

/-- **C102, violated.** In double precision, with the default threshold, a node-moving phase
can go on until it reaches its limit of sweeps, whatever this limit is, although no sweep
after the first changes the stability: a node moves back and forth between two clusters and
each move is reported as a gain. -/
theorem C102_cycle_violated (cy : Bool) :
    ∃ c : Clu ℚ, FreshDefault double c ∧ ∃ σ : ℚ, ∀ nSub, 2 ≤ nSub → ∃ gain p,
      moveNodes double cy exF 1 (1 / 2 ^ 52) nSub c (nSub + 1) = .ok (gain, nSub, p) ∧
      Consistent p ∧ pairStability c.S p = σ := by
  have hf := exClu_fresh 3 exCycT exCycS (by decide +kernel)
  have hu := C100_constructed double _ (Or.inl hf)
  refine ⟨_, hf, stability exCycS (partOf clA), fun nSub hn => ?_⟩
  have hfirst : cycSweep cy (exClu 3 exCycT exCycS).part = .ok (2 * fl (9 / 5), partOf clB) := by
    apply cyc_step cy hu.1 hu.2.1
    cases cy <;> decide +kernel
  unfold moveNodes
  simp only [moveLoop]
  have h1 : double.lt (1 / 2 ^ 52) double.one = true := by decide +kernel
  rw [if_pos ⟨h1, by omega⟩]
  have e : ∀ p, sweep double cy (exClu 3 exCycT exCycS).S (exClu 3 exCycT exCycS).T
      (exClu 3 exCycT exCycS).n (exF.listing 1 1) (exF.nodes 1 1)
      (exF.order 1 1 (exClu 3 exCycT exCycS).n) double.zero p = cycSweep cy p := fun _ => rfl
  rw [e, hfirst]
  obtain ⟨t, cl', hcl, hrun⟩ := cyc_loop cy nSub nSub 2 (double.add double.zero (2 * fl (9 / 5))) clB
    (Or.inr rfl) (2 * fl (9 / 5)) (by decide +kernel) hn (by omega)
  refine ⟨t, removeEmpty (partOf cl'), hrun, ?_, ?_⟩
  · rcases hcl with rfl | rfl
    · exact consistent_removeEmpty consA.1
    · exact consistent_removeEmpty consB.1
  · show pairStability exCycS (removeEmpty (partOf cl')) = _
    have hst : stability exCycS (partOf clB) = stability exCycS (partOf clA) := by decide +kernel
    rcases hcl with rfl | rfl
    · rw [← stability_pair _ _ (consistent_removeEmpty consA.1).1, stability_removeEmpty]
    · rw [← stability_pair _ _ (consistent_removeEmpty consB.1).1, stability_removeEmpty, hst]

/-- Non-vacuity for `C102_progress_partial`: the first sweep of the example in double
precision, with threshold one. -/
example : ∃ (p p' : Part) (d : ℚ), Consistent p ∧
    InRange (1 / 2 ^ 53) 1000 p.numNodes exCycS ∧
    (1 + 1 / 2 ^ 53 : ℚ) ^ p.numNodes * (p.numNodes * gainMax (1 / 2 ^ 53) p.numNodes exCycS) ≤ 1000 ∧
    (1 + 1 / 2 ^ 53 : ℚ) ^ p.numNodes * (p.numNodes * gainError (1 / 2 ^ 53) p.numNodes exCycS) ≤ 1 ∧
    sweep double true exCycS exCycT p.numNodes (exF.listing 1 1) (exF.nodes 1 1)
      (exF.order 1 1 p.numNodes) double.zero p = .ok (d, p') ∧ 1 < d := by
  have hf := exClu_fresh 3 exCycT exCycS (by decide +kernel)
  have hu := C100_constructed double _ (Or.inl hf)
  have hfirst : cycSweep true (exClu 3 exCycT exCycS).part = .ok (2 * fl (9 / 5), partOf clB) := by
    apply cyc_step true hu.1 hu.2.1
    decide +kernel
  exact ⟨_, _, _, hu.1, by unfold InRange; decide +kernel, by decide +kernel, by decide +kernel,
    hfirst, by decide +kernel⟩

end Verif.Rounding
