import Verif.Rounding.Props

/-!
# C101 and C102: what rounding can cost
-/

set_option linter.unusedSectionVars false

namespace Verif.Rounding

open Verif.Partition Verif.Louvain

variable {K : Type} [Field K] [LinearOrder K] [IsStrictOrderedRing K] {u B : K} {ar : Arith K}

theorem mass_nonneg (n : Nat) (S : Nat → Nat → K) : 0 ≤ mass n S :=
  Finset.sum_nonneg fun _ _ => Finset.sum_nonneg fun _ _ => abs_nonneg _

theorem gainError_nonneg (hu : 0 ≤ u) (n : Nat) (S : Nat → Nat → K) : 0 ≤ gainError u n S := by
  unfold gainError
  have := one_le_pow' hu (n ^ 2 + 2 * n + 3)
  have := mass_nonneg n S
  apply mul_nonneg
  · linarith
  · linarith

/-- No intermediate result overflows. -/
def InRange (u B : K) (n : Nat) (S : Nat → Nat → K) : Prop :=
  (1 + u) ^ (n ^ 2 + 2 * n + 3) * (4 * mass n S) ≤ B

theorem inRange_le (hu : 0 ≤ u) {n : Nat} {S : Nat → Nat → K} (h : InRange u B n S) {q : Nat}
    (hq : q ≤ n ^ 2 + 2 * n + 3) : (1 + u) ^ q * (4 * mass n S) ≤ B := by
  refine le_trans (mul_le_mul_of_nonneg_right (pow_le_pow_right₀ (by linarith) hq) ?_) h
  have := mass_nonneg n S
  linarith

theorem error_le (hu : 0 ≤ u) {n : Nat} (S : Nat → Nat → K) {q : Nat} (hq : q ≤ n ^ 2 + 2 * n + 3) :
    ((1 + u) ^ q - 1) * (4 * mass n S) ≤ gainError u n S := by
  unfold gainError
  refine mul_le_mul_of_nonneg_right ?_ (by have := mass_nonneg n S; linarith)
  have := pow_le_pow_right₀ (a := 1 + u) (by linarith) hq
  linarith

/-- The meta loop with rounding: the loss is bounded by the number of moves times the error
of a gain. -/
theorem metaLoop_loss (hr : Rounds u B ar) (hu : 0 ≤ u) (cy : Bool) (sc : FSched) (par : Params K)
    (n : Nat) (T S : Nat → Nat → K) (hB : InRange u B n S) (steps k0 : Nat)
    (delta : K) (stop : Bool) (self : Part) (mc : Clu K) (hself : Consistent self)
    (hn : self.numNodes = n) (hpos : 0 < n) (hne : ∀ c ∈ self.clusters, c.Nonempty)
    (hinv : stop = true ∨ (Consistent mc.part ∧ mc.part.numNodes = mc.n ∧
      mc.n = self.clusters.length ∧ ∃ x A, Level u (n ^ 2) mc.n (mass n S) mc.S x A ∧
        (∀ p : Part, p.numNodes = mc.n → Consistent p →
          stability x p = stability (aggS S self.clusters) p) ∧
        stability x mc.part = stability S self))
    (k : Nat) (p : Part) (hk0 : k0 ≤ par.nMeta + 1)
    (hres : metaLoop ar cy sc par T S steps k0 delta stop self mc = .ok (k, p)) :
    stability S self - ((par.nMeta + 1 - k0 : Nat) : K)
      * (((par.nSub - 1 : Nat) * n : K) * gainError u n S) ≤ stability S p := by
  have hε := gainError_nonneg (u := u) hu n S
  induction steps generalizing k0 delta stop self mc with
  | zero => simp [metaLoop] at hres
  | succ steps ih =>
    simp only [metaLoop] at hres
    split at hres
    · injection hres with hres
      simp only [Prod.mk.injEq] at hres
      obtain ⟨_, rfl⟩ := hres
      have : 0 ≤ ((par.nMeta + 1 - k0 : Nat) : K) * (((par.nSub - 1 : Nat) * n : K) * gainError u n S) := by
        positivity
      linarith
    · rename_i hcond
      have hstop : stop ≠ true := fun h => hcond (Or.inr (Or.inl h))
      have hk : ¬ par.nMeta < k0 := fun h => hcond (Or.inr (Or.inr h))
      obtain ⟨hmc, hmn, hlen, x, A, hX, hS, hst⟩ := hinv.resolve_left hstop
      have hmle : mc.n ≤ n := by
        rw [hlen, ← hn]
        exact C100_any_arithmetic.clusters_le hself hne
      have hq : n ^ 2 + 2 * mc.n + 3 ≤ n ^ 2 + 2 * n + 3 := by omega
      obtain ⟨d, kl, p1, h1, h2, h3, h4, _, h5⟩ := moveLoop_any ar cy sc (k0 + 1) par.thr
        par.nSub mc.S mc.T mc.n (fun p => stability x p) (gainError u n S) hε (by
          intro p hp hpn k v hv g p' hm
          obtain ⟨e1, e2⟩ := moved_gain hr hu cy hX (inRange_le hu hB hq) mc.T _ _
            (sc.nodes_nodup (k0 + 1) k v) (sc.mem_nodes (k0 + 1) k v) hp hpn hv hm
          have e3 := (abs_le.1 (le_trans e1 (error_le hu S hq))).2
          linarith)
        (fun p => stability_removeEmpty x p) (par.nSub + 1) 1 ar.one ar.zero hmc hmn (by omega)
      have hmove : moveNodes ar cy sc (k0 + 1) par.thr par.nSub mc (par.nSub + 1)
          = .ok (d, kl, p1) := h1
      rw [hmove] at hres
      simp only at hres h5
      have hp1n : p1.numNodes = self.clusters.length := by rw [h3, hlen]
      obtain ⟨self', h7, h8, h9, h10, h11⟩ := updatePart_spec hself hne h2 hp1n (by omega)
      rw [h7] at hres
      simp only at hres
      have hst' : stability S self - ((par.nSub - 1 : Nat) * n : K) * gainError u n S
          ≤ stability S self' := by
        have e1 : stability S self' = stability x p1 := by
          rw [← stability_induced S hself h2 hp1n h8 h9 h11, ← hS p1 h3 h2]
        rw [e1, ← hst]
        refine le_trans ?_ h5
        have e2 : ((par.nSub - 1 : Nat) * mc.n : K) * gainError u n S
            ≤ ((par.nSub - 1 : Nat) * n : K) * gainError u n S := by
          apply mul_le_mul_of_nonneg_right _ hε
          apply mul_le_mul_of_nonneg_left _ (Nat.cast_nonneg _)
          exact_mod_cast hmle
        linarith
      have hcnt : ((par.nMeta + 1 - k0 : Nat) : K) = ((par.nMeta + 1 - (k0 + 1) : Nat) : K) + 1 := by
        have : par.nMeta + 1 - k0 = (par.nMeta + 1 - (k0 + 1)) + 1 := by omega
        rw [this]
        push_cast
        ring
      rw [hcnt]
      split at hres
      · have := ih (k0 + 1) d true self' _ h8 (h9.trans hn) h10 (Or.inl rfl) (by omega) hres
        linarith
      · split at hres
        · simp at hres
        · rename_i mc' hagg
          rcases aggregate_any ar (sc.block (k0 + 1)) T S (p := self') with e | ⟨mc'', e, e1, e2, e3, e4, e5⟩
          · rw [e] at hagg
            simp at hagg
          · rw [e] at hagg
            injection hagg with hagg
            subst hagg
            have hn' : self'.numNodes = n := h9.trans hn
            have hl := level_agg hr hu (sc.block (k0 + 1)) (sc.block_nodup (k0 + 1))
              (sc.mem_block (k0 + 1)) S h8 (by
                rw [hn']
                have h1 := inRange_le hu hB (q := 0) (by omega)
                have h2 := mass_nonneg n S
                rw [pow_zero, one_mul] at h1
                linarith)
            rw [hn'] at hl
            have := ih (k0 + 1) d false self' mc'' h8 hn' h10 (Or.inr ⟨e3, by rw [e4, e2], e2,
              aggS S self'.clusters, _, by rw [e1, e2]; exact hl, fun _ _ _ => rfl,
              stability_agg_singletons S h8 e3 e4 e5⟩) (by omega) hres
            linarith

/-! ### C101 -/

/-- **C101, partial.** When a node moves, the gain computed by the code is the change of
stability up to `gainError`, and it is not negative: the change of stability is at least
minus `gainError`. -/
theorem C101_gain_error_partial (hr : Rounds u B ar) (hu : 0 ≤ u) (cy : Bool) (S T : Nat → Nat → K)
    (p : Part) (h : Consistent p) (hB : InRange u B p.numNodes S)
    (it : Finset Int → List Int) (hit : ∀ s x, x ∈ it s ↔ x ∈ s) (lst : Finset Nat → List Nat)
    (hnd : ∀ c, (lst c).Nodup) (hmem : ∀ c v, v ∈ lst c ↔ v ∈ c) (v : Nat) (hv : v < p.numNodes)
    (g : K) (p' : Part) (hvisit : visit ar cy S T p.numNodes it lst p v = .ok (some g, p')) :
    |g - (pairStability S p' - pairStability S p)| ≤ gainError u p.numNodes S ∧ 0 ≤ g := by
  obtain ⟨o, p1, h1, h2, h3, h4⟩ := visit_any ar cy S T h it hit lst hv
  rw [h1] at hvisit
  simp only [Except.ok.injEq, Prod.mk.injEq] at hvisit
  obtain ⟨rfl, rfl⟩ := hvisit
  rcases h4 with ⟨h4, _⟩ | ⟨g', hg, hm⟩
  · simp at h4
  · injection hg with hg
    subst hg
    have hq : p.numNodes ^ 2 + 2 * p.numNodes + 3 ≤ p.numNodes ^ 2 + 2 * p.numNodes + 3 := le_rfl
    obtain ⟨e1, e2⟩ := moved_gain hr hu cy (level_zero hu (p.numNodes ^ 2) p.numNodes S)
      (inRange_le hu hB hq) T it lst hnd hmem h rfl hv hm
    rw [stability_pair _ _ h2.1, stability_pair _ _ h.1] at e1
    exact ⟨e1, e2⟩

/-- **C101, partial.** In any arithmetic that rounds with relative error `u` and does not
overflow, from the default partition and for all schedules, thresholds and limits, the
stability of the result is at least that of the start minus the error of a gain times the
largest possible number of moves. -/
theorem C101_loss_bounded_partial (hr : Rounds u B ar) (hu : 0 ≤ u) (cy : Bool) (sc : FSched)
    (par : Params K) (c : Clu K) (hfresh : FreshDefault ar c) (hB : InRange u B c.n c.S)
    (hS : ar.negligible c.n ((List.range c.n).map fun i => (List.range c.n).map fun j => c.S i j) = false)
    (k : Nat) (p : Part) (hres : findLouvain ar cy sc par c = .ok (k, p)) :
    pairStability c.S c.part
      - ((par.nMeta + 1 : Nat) : K) * (((par.nSub - 1 : Nat) * c.n : K) * gainError u c.n c.S)
      ≤ pairStability c.S p := by
  have hn0 : 0 < c.n := by
    by_contra h0
    unfold findLouvain at hres
    rw [if_pos (by omega)] at hres
    simp at hres
  have hvalid := C100_any_arithmetic ar cy sc par c (C100_constructed ar c (Or.inl hfresh)) hn0
  unfold FreshDefault mkClu at hfresh
  obtain ⟨q, hq, h1, h2, h3⟩ := mk'_none c.n false
  rw [hq] at hfresh
  by_cases hrows : rowsOk ar c.n c.T
  · rw [if_pos hrows] at hfresh
    injection hfresh with hfresh
    have hpart : c.part = q := by rw [← hfresh]
    have hcons : Consistent p := by
      rcases hvalid with e | ⟨k', p', e, e', _⟩
      · rw [e] at hres
        simp at hres
      · rw [e] at hres
        simp only [Except.ok.injEq, Prod.mk.injEq] at hres
        exact hres.2 ▸ e'
    unfold findLouvain at hres
    rw [if_neg (by omega), hS] at hres
    simp only [Bool.false_eq_true, if_false] at hres
    unfold mkClu at hres
    rw [if_pos hrows, hpart, mk'_clusterList] at hres
    have hqe : removeEmpty { numNodes := c.n, clusters := q.clusters, dict := dictOf q.clusters } = q := by
      have := removeEmpty_of_nonempty h1 (by rw [h3]; exact singletons_nonempty _)
      rw [← this]
      unfold removeEmpty
      simp only [h2]
      congr 1 <;> simp
    rw [hqe] at hres
    simp only at hres
    have hlen : q.clusters.length = c.n := by rw [h3]; simp [singletons]
    have := metaLoop_loss hr hu cy sc par c.n c.T c.S hB (par.nMeta + 3) 0 ar.one false q
      { n := c.n, T := c.T, S := c.S, part := q } h1 h2 hn0
      (by rw [h3]; exact singletons_nonempty _)
      (Or.inr ⟨h1, h2, hlen.symm, c.S, _, level_zero hu (c.n ^ 2) c.n c.S,
        fun r hr hrc => stability_congr _ _ hrc.1 (by
          intro i hi j hj
          simp only at hr
          rw [h3, aggS_singletons c.S c.n i j (by omega) (by omega)]), rfl⟩) k p (by omega) hres
    rw [hpart, ← stability_pair _ _ h1.1, ← stability_pair _ _ hcons.1]
    exact this
  · rw [if_neg hrows] at hfresh
    simp at hfresh

/-- Two nodes whose covariance is slightly negative, next to variances of size one. -/
def exLoss (i j : Nat) : ℚ := if i = j then 1 else -1 / 2 ^ 55

/-- Stability reached, if the call succeeds. -/
def reached (S : Nat → Nat → ℚ) (r : Except Err (Nat × Part)) : Option ℚ :=
  match r with
  | .ok (_, p) => some (stability S p)
  | .error _ => none

/-- **C101, violated.** In double precision the result can be worse than the start: two nodes
with negative covariance end in one cluster, with the compiled sums and with numpy. -/
theorem C101_double_violated (cy : Bool) :
    ∃ c : Clu ℚ, FreshDefault double c ∧ ∃ k p,
      findLouvain double cy exF (exPar 1000) c = .ok (k, p) ∧ Consistent p ∧
      pairStability c.S p < pairStability c.S c.part := by
  have hf := exClu_fresh 2 (fun _ _ => 1 / 2) exLoss (by decide +kernel)
  have hu := C100_constructed double _ (Or.inl hf)
  refine ⟨_, hf, ?_⟩
  have h : reached exLoss (findLouvain double cy exF (exPar 1000) (exClu 2 (fun _ _ => 1 / 2) exLoss))
      = some (2 - 1 / 2 ^ 54) := by cases cy <;> decide +kernel
  rcases C100_any_arithmetic double cy exF (exPar 1000) _ hu (by decide) with e | ⟨k, p, e, h1, _⟩
  · rw [e] at h
    simp [reached] at h
  · refine ⟨k, p, e, h1, ?_⟩
    rw [e] at h
    simp only [reached, Option.some.injEq] at h
    have h0 : stability exLoss (exClu 2 (fun _ _ => 1 / 2) exLoss).part = 2 := by decide +kernel
    show pairStability exLoss p < pairStability exLoss (exClu 2 (fun _ _ => 1 / 2) exLoss).part
    rw [← stability_pair _ _ h1.1, ← stability_pair _ _ hu.1.1, h, h0]
    norm_num

/-- Non-vacuity for the bounds of C101: the hypotheses hold for the example in double
precision, with any bound on the range that is at least 9. -/
example : ∃ (c : Clu ℚ) (B : ℚ), Rounds (1 / 2 ^ 53) B double ∧ FreshDefault double c ∧
    InRange (1 / 2 ^ 53) B c.n c.S ∧ 1 < c.n ∧
    double.negligible c.n ((List.range c.n).map fun i => (List.range c.n).map fun j => c.S i j) = false ∧
    gainError (1 / 2 ^ 53) c.n c.S < 1 / 10 ^ 13 ∧
    ∃ k p, findLouvain double true exF (exPar 1000) c = .ok (k, p) := by
  have hf := exClu_fresh 2 (fun _ _ => 1 / 2) exLoss (by decide +kernel)
  have hu := C100_constructed double _ (Or.inl hf)
  refine ⟨_, 9, double_rounds 9, hf, by unfold InRange; decide +kernel, by decide,
    by decide +kernel, by decide +kernel, ?_⟩
  rcases C100_any_arithmetic double true exF (exPar 1000) _ hu (by decide) with e | ⟨k, p, e, _⟩
  · have h : reached exLoss (findLouvain double true exF (exPar 1000) (exClu 2 (fun _ _ => 1 / 2) exLoss))
      = some (2 - 1 / 2 ^ 54) := by decide +kernel
    rw [e] at h
    simp [reached] at h
  · exact ⟨k, p, e⟩

end Verif.Rounding
