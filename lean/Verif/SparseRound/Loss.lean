import Verif.SparseRound.AggLevel
import Verif.SparseRound.Double
import Verif.SparseLouvain.Meta
import Verif.Rounding.Loss

/-!
# C114: what rounding can cost the sparse clustering
-/

set_option linter.unusedSectionVars false

namespace Verif.SparseRound

open Verif.Partition Verif.Csr Verif.Autocov
open Verif.Louvain (Params aggS stability pairStability stability_pair stability_induced updatePart_spec
  stability_agg_singletons stability_congr stability_removeEmpty aggS_singletons singletons_nonempty
  mk'_clusterList removeEmpty_of_nonempty)
open Verif.Rounding (Arith FSched exF exPar double fl fl_spec Near one_le_pow' Rounds absSum)
open Verif.SparseLouvain (SErr SClu mkS card_one_of_length)

variable {K : Type} [Field K] [LinearOrder K] [IsStrictOrderedRing K] {u B : K} {ar : SArith K}

/-- What is assumed of the stored matrix: no place is stored twice, the flag for symmetry tells
the truth, every row stores a number, stored numbers are positive, and the weights are normalised
up to rounding. -/
structure Sound (u : K) (r : Nat) (ar : SArith K) (A : Autocov K) : Prop where
  once : A.PT.NoRepeats
  sym : SymmetricOk A
  stored : StoredPositive ar A
  weights : WeightsOk u r A.PT.nrows A.w

theorem stored_pos (hr : RoundsS u B ar) {A : Autocov K} (h : StoredPositive ar A) :
    ∀ i < A.PT.nrows, A.PT.row i ≠ [] ∧ ∀ e ∈ A.PT.row i, 0 < e.2 := by
  intro i hi
  refine ⟨(h i hi).1, fun e he => ?_⟩
  have := (h i hi).2 e he
  rw [hr.lt, hr.zero, decide_eq_true_eq] at this
  exact this

theorem massS_nonneg {r : Nat} (hr : RoundsS u B ar) {A : Autocov K} (h : Sound u r ar A) : 0 ≤ massS A := by
  refine Finset.sum_nonneg fun i hi => Finset.sum_nonneg fun j hj => add_nonneg ?_ ?_
  · exact val_nonneg (fun i hi => (stored_pos hr h.stored i hi).2) (Finset.mem_range.1 hi) j
  · exact p0_nonneg h.weights (Finset.mem_range.1 hi) (Finset.mem_range.1 hj)

theorem inRangeS_le (hu : 0 ≤ u) {r : Nat} {A : Autocov K} (hm : 0 ≤ massS A) (h : InRangeS u B r A)
    {q : Nat} (hq : q ≤ roundings r A.PT.nrows) : (1 + u) ^ q * (4 * massS A) ≤ B :=
  le_trans (mul_le_mul_of_nonneg_right (pow_le_pow_right₀ (by linarith) hq) (by linarith)) h.1

theorem errorS_le (hu : 0 ≤ u) {r : Nat} {A : Autocov K} (hm : 0 ≤ massS A) {q : Nat}
    (hq : q ≤ roundings r A.PT.nrows) :
    ((1 + u) ^ q - 1) * (4 * massS A) ≤ gainErrorS u r A := by
  unfold gainErrorS
  refine mul_le_mul_of_nonneg_right ?_ (by linarith)
  have := pow_le_pow_right₀ (a := 1 + u) (by linarith) hq
  linarith

theorem gainErrorS_nonneg (hu : 0 ≤ u) {r : Nat} {A : Autocov K} (hm : 0 ≤ massS A) :
    0 ≤ gainErrorS u r A := by
  unfold gainErrorS
  have := one_le_pow' hu (roundings r A.PT.nrows)
  exact mul_nonneg (by linarith) (by linarith)

/-- The level of the original nodes. -/
theorem level_base (hr : RoundsS u B ar) (hu : 0 ≤ u) {r : Nat} {PT : Csr K} {w : Weights K} {sym : Bool}
    (hwf : PT.WF) (hsq : PT.ncols = PT.nrows) (h : Sound u r ar (mkAutocov PT w sym)) (q : Nat) :
    SLevel u q PT.nrows (massS (mkAutocov PT w sym)) (mkAutocov PT w sym)
      (mkAutocov PT w sym).PT.val w.p0 := by
  have h1 : (mkAutocov PT w sym).PT = sortIndices PT := rfl
  have hn : (mkAutocov PT w sym).PT.nrows = PT.nrows := nrows_sortIndices PT
  have hpos := stored_pos hr h.stored
  have hw : WeightsOk u r PT.nrows w := by
    have := h.weights
    rw [hn] at this
    exact this
  rw [hn] at hpos
  have hperm : ∀ k < PT.nrows, ((mkAutocov PT w sym).PT.row k).Perm (PT.row k) := by
    intro k hk
    rw [h1, row_sortIndices _ _ hk]
    exact perm_sortRow PT.ncols (PT.row k) (hwf.row_lt k)
  have hnd : ∀ k < PT.nrows, (((mkAutocov PT w sym).PT.row k).map Prod.fst).Nodup :=
    fun k hk => h.once k (by rw [hn]; exact hk)
  apply level_mk hwf hsq
  · intro k hk e he
    have he' := (hperm k hk).mem_iff.2 he
    have hv : (mkAutocov PT w sym).PT.val k e.1 = e.2 := sumAt_of_mem _ (hnd k hk) e he'
    rw [hv]
    have : Near u 0 e.2 e.2 e.2 := by simp [Near, abs_of_pos ((hpos k hk).2 e he')]
    exact this.mono hu (by omega)
  · intro k hk
    exact ((hperm k hk).map Prod.fst).nodup_iff.1 (hnd k hk)
  · intro k hk j hj hnot
    apply sumAt_eq_zero
    intro e he hej
    exact hnot (List.mem_map.2 ⟨e, (hperm k hk).mem_iff.1 he, hej⟩)
  · intro k hk
    exact (row_mk_nonempty hwf w sym hk).1 (hpos k hk).1
  · intro hs i hi j hj
    exact h.sym hs i j (by rw [hn]; exact hi) (by rw [hn]; exact hj)
  · intro i hi j _
    exact val_nonneg (fun i hi => (stored_pos hr h.stored i hi).2) (by rw [hn]; exact hi) j
  · intro i hi j hj
    exact p0_nonneg hw hi hj
  · cases w with
    | scalars a b => exact fun _ _ _ _ => rfl
    | vectors p1 p2 =>
      intro i hi j hj
      have : Near u 0 (p1 i * p2 j) (p1 i * p2 j) (p1 i * p2 j) := by
        simp [Near, abs_of_nonneg (mul_nonneg (hw.1 i hi) (hw.2.1 j hj))]
      exact this.mono hu (by omega)
  · unfold massS
    rw [hn]
    exact le_rfl

theorem SLevel.last {q m : Nat} {M : K} {A : Autocov K} {t w : Nat → Nat → K} (L : SLevel u q m M A t w)
    (hA : Shape A) (hm : m = A.PT.nrows) (h0 : 0 < m) : LastStored A := by
  intro hlast
  obtain ⟨o, ho, _⟩ := L.diag (m - 1) (by omega)
  subst hm
  rw [fReadDiag_last hA.wf h0 hlast] at ho
  simp at ho

/-- The meta loop with rounding: the loss is bounded by the number of moves times the error
of a gain. -/
theorem metaLoop_loss (hr : RoundsS u B ar) (hu : 0 ≤ u) {r : Nat} (sc : FSched) (par : Params K)
    {A : Autocov K} (hA : Shape A) (hs : Sound u r ar A) (hB : InRangeS u B r A) (steps k0 : Nat)
    (delta : K) (stop : Bool) (self : Part) (mc : SClu K) (hself : Consistent self)
    (hn : self.numNodes = A.PT.nrows) (hpos : 0 < A.PT.nrows) (hne : ∀ c ∈ self.clusters, c.Nonempty)
    (hinv : stop = true ∨ (Shape mc.A ∧ Consistent mc.part ∧ mc.part.numNodes = mc.A.PT.nrows ∧
      mc.A.PT.nrows = self.clusters.length ∧ ∃ t w,
        SLevel u (A.PT.nrows ^ 2 + 10 * A.PT.nrows + 16 * r + 20) mc.A.PT.nrows (massS A) mc.A t w ∧
        (∀ p : Part, p.numNodes = mc.A.PT.nrows → Consistent p →
          stability (fun i j => t i j - w i j) p = stability (aggS A.toarray self.clusters) p) ∧
        stability (fun i j => t i j - w i j) mc.part = stability A.toarray self))
    (k : Nat) (p : Part) (hk0 : k0 ≤ par.nMeta + 1)
    (hres : metaLoop ar sc par A steps k0 delta stop self mc = .ok (k, p)) :
    stability A.toarray self - ((par.nMeta + 1 - k0 : Nat) : K)
      * (((par.nSub - 1 : Nat) * A.PT.nrows : K) * gainErrorS u r A) ≤ stability A.toarray p := by
  have hm0 := massS_nonneg hr hs
  have hε := gainErrorS_nonneg (r := r) hu hm0
  induction steps generalizing k0 delta stop self mc with
  | zero => simp [metaLoop] at hres
  | succ steps ih =>
    simp only [metaLoop] at hres
    split at hres
    · injection hres with hres
      simp only [Prod.mk.injEq] at hres
      obtain ⟨_, rfl⟩ := hres
      have : 0 ≤ ((par.nMeta + 1 - k0 : Nat) : K)
          * (((par.nSub - 1 : Nat) * A.PT.nrows : K) * gainErrorS u r A) := by
        positivity
      linarith
    · rename_i hcond
      have hstop : stop ≠ true := fun h => hcond (Or.inr (Or.inl h))
      have hk : ¬ par.nMeta < k0 := fun h => hcond (Or.inr (Or.inr h))
      obtain ⟨hmA, hmc, hmn, hlen, t, w, hL, hS, hst⟩ := hinv.resolve_left hstop
      have hmle : mc.A.PT.nrows ≤ A.PT.nrows := by
        rw [hlen, ← hn]
        exact Verif.Rounding.C100_any_arithmetic.clusters_le hself hne
      have hq : A.PT.nrows ^ 2 + 10 * A.PT.nrows + 16 * r + 20 + 4 * mc.A.PT.nrows + 5
          ≤ roundings r A.PT.nrows := by
        unfold roundings
        omega
      have hcl0 : 0 < mc.A.PT.nrows := by
        rw [hlen]
        obtain ⟨i, ⟨cl, hcl, _⟩, _⟩ := (hself.1 0).1 (by omega)
        exact (List.getElem?_eq_some_iff.1 hcl).1.trans_le' (Nat.zero_le _)
      rcases moveLoop_any ar sc (k0 + 1) par.thr par.nSub hmA
        (fun p => stability (fun i j => t i j - w i j) p) (gainErrorS u r A) hε (by
          intro p hp hpn k v hv g p' hm
          obtain ⟨e1, e2⟩ := moved_gain hr hu hL (inRangeS_le hu hm0 hB hq) (by
              have h1 := hB.2.1
              have h2 : (mc.A.PT.nrows : K) ≤ A.PT.nrows := Nat.cast_le.2 hmle
              linarith) _ _
            (sc.nodes_nodup (k0 + 1) k v) (sc.mem_nodes (k0 + 1) k v) hp hpn hv hm
          have e3 := (abs_le.1 (le_trans e1 (errorS_le hu hm0 hq))).2
          linarith)
        (fun p => stability_removeEmpty _ p) (par.nSub + 1) 1 ar.one ar.zero hmc hmn (by omega) with
        ⟨_, e⟩ | ⟨d, kl, p1, h1, h2, h3, h4, _, h5⟩
      · exact absurd (hL.last hmA rfl hcl0) e
      have hmove : moveNodes ar sc (k0 + 1) par.thr par.nSub mc (par.nSub + 1)
          = .ok (d, kl, p1) := h1
      rw [hmove] at hres
      simp only at hres h5
      have hp1n : p1.numNodes = self.clusters.length := by rw [h3, hlen]
      obtain ⟨self', h7, h8, h9, h10, h11⟩ := updatePart_spec hself hne h2 hp1n (by omega)
      rw [h7] at hres
      simp only at hres
      have hst' : stability A.toarray self - ((par.nSub - 1 : Nat) * A.PT.nrows : K) * gainErrorS u r A
          ≤ stability A.toarray self' := by
        have e1 : stability A.toarray self' = stability (fun i j => t i j - w i j) p1 := by
          rw [← stability_induced A.toarray hself h2 hp1n h8 h9 h11, ← hS p1 h3 h2]
        rw [e1, ← hst]
        refine le_trans ?_ h5
        have e2 : ((par.nSub - 1 : Nat) * mc.A.PT.nrows : K) * gainErrorS u r A
            ≤ ((par.nSub - 1 : Nat) * A.PT.nrows : K) * gainErrorS u r A := by
          apply mul_le_mul_of_nonneg_right _ hε
          apply mul_le_mul_of_nonneg_left _ (Nat.cast_nonneg _)
          exact_mod_cast hmle
        linarith
      have hcnt : ((par.nMeta + 1 - k0 : Nat) : K) = ((par.nMeta + 1 - (k0 + 1) : Nat) : K) + 1 := by
        have : par.nMeta + 1 - k0 = (par.nMeta + 1 - (k0 + 1)) + 1 := by omega
        rw [this]
        push_cast
        ring
      rw [hcnt]
      have hn' : self'.numNodes = A.PT.nrows := h9.trans hn
      split at hres
      · have := ih (k0 + 1) d true self' _ h8 hn' h10 (Or.inl rfl) (by omega) hres
        linarith
      · rename_i hgo
        have hlen' : self'.clusters.length ≠ A.PT.nrows := by
          intro hl
          have hp := h8.1
          rw [hn'] at hp
          exact hgo (Or.inl (card_one_of_length hp h10 hl))
        have hle' : self'.clusters.length ≤ A.PT.nrows := by
          rw [← hn']
          exact Verif.Rounding.C100_any_arithmetic.clusters_le h8 h10
        have hagg : ∃ q, aggregate ar (sc.block (k0 + 1)) A self'
            = .ok ⟨fAggregate ar A (self'.clusters.map (sc.block (k0 + 1))), q⟩ ∧ Consistent q ∧
            q.numNodes = self'.clusters.length ∧ q.clusters = singletons self'.clusters.length := by
          unfold aggregate
          rw [if_neg hlen']
          obtain ⟨q, a, b, c, d⟩ := mkS_none (fAggregate ar A (self'.clusters.map (sc.block (k0 + 1))))
          have e := (shape_fAggregate ar A (self'.clusters.map (sc.block (k0 + 1)))).2
          rw [List.length_map] at e
          rw [e] at c d
          exact ⟨q, a, b, c, d⟩
        obtain ⟨q, e, e3, e4, e5⟩ := hagg
        rw [e] at hres
        simp only at hres
        have hsh := shape_fAggregate ar A (self'.clusters.map (sc.block (k0 + 1)))
        rw [List.length_map] at hsh
        have hl := level_agg hr hu hA.wf hA.square hs.once (stored_pos hr hs.stored) hs.sym hs.weights hB
          h8 hn' hpos h10 hle' (sc.block (k0 + 1)) (sc.block_nodup (k0 + 1)) (sc.mem_block (k0 + 1))
        have hdiff : (fun i j => aggS A.PT.val self'.clusters i j - aggS A.w.p0 self'.clusters i j)
            = aggS A.toarray self'.clusters := by
          funext i j
          unfold aggS Verif.Louvain.blockSum Autocov.toarray
          rw [← Finset.sum_sub_distrib]
          exact Finset.sum_congr rfl fun a _ => by rw [← Finset.sum_sub_distrib]
        have := ih (k0 + 1) d false self' _ h8 hn' h10 (Or.inr ⟨hsh.1, e3, by rw [e4]; exact hsh.2.symm,
          hsh.2, aggS A.PT.val self'.clusters, aggS A.w.p0 self'.clusters, by rw [hsh.2]; exact hl,
          fun _ _ _ => by rw [hdiff], by
            rw [hdiff]
            exact stability_agg_singletons A.toarray h8 e3 e4 e5⟩) (by omega) hres
        linarith

/-! ### C114 -/

/-- **C114, partial.** When a node moves, the gain computed by the code is the change of
stability up to `gainErrorS`, and it is not negative: the change of stability is at least
minus `gainErrorS`. -/
theorem C114_gain_error_partial (hr : RoundsS u B ar) (hu : 0 ≤ u) {r : Nat} (c : SClu K)
    (hc : Constructed c) (hs : Sound u r ar c.A) (hB : InRangeS u B r c.A) (p : Part) (h : Consistent p)
    (hn : p.numNodes = c.A.PT.nrows)
    (it : Finset Int → List Int) (hit : ∀ s x, x ∈ it s ↔ x ∈ s) (lst : Finset Nat → List Nat)
    (hnd : ∀ c, (lst c).Nodup) (hmem : ∀ c v, v ∈ lst c ↔ v ∈ c) (v : Nat) (hv : v < p.numNodes)
    (g : K) (p' : Part) (hvisit : visit ar c.A it lst p v = .ok (some g, p')) :
    |g - (pairStability c.A.toarray p' - pairStability c.A.toarray p)| ≤ gainErrorS u r c.A ∧ 0 ≤ g := by
  obtain ⟨hA, _⟩ := constructed_shape hc
  have hm0 := massS_nonneg hr hs
  obtain ⟨⟨PT, w, sym, hwf, hsq, hAe⟩, _⟩ := hc
  have hnr : c.A.PT.nrows = PT.nrows := by
    rw [hAe]
    exact nrows_sortIndices PT
  have hL : SLevel u 0 c.A.PT.nrows (massS c.A) c.A c.A.PT.val c.A.w.p0 := by
    have hs' := hs
    rw [hAe] at hs'
    have := level_base hr hu hwf hsq hs' 0
    rw [hnr, hAe]
    exact this
  rcases visit_any ar hA h hn it hit lst (hn ▸ hv) with ⟨e, _⟩ | ⟨o, p1, h1, h2, h3, h4⟩
  · rw [e] at hvisit
    simp at hvisit
  rw [h1] at hvisit
  simp only [Except.ok.injEq, Prod.mk.injEq] at hvisit
  obtain ⟨rfl, rfl⟩ := hvisit
  rcases h4 with ⟨h4, _⟩ | ⟨g', hg, hm⟩
  · simp at h4
  · injection hg with hg
    subst hg
    have hq : 0 + 4 * c.A.PT.nrows + 5 ≤ roundings r c.A.PT.nrows := by
      unfold roundings
      omega
    obtain ⟨e1, e2⟩ := moved_gain hr hu hL (inRangeS_le hu hm0 hB hq) hB.2.1 it lst hnd hmem h hn
      (hn ▸ hv) hm
    have e3 := le_trans e1 (errorS_le hu hm0 hq)
    rw [← stability_pair _ _ h2.1, ← stability_pair _ _ h.1]
    exact ⟨e3, e2⟩

/-- **C114, partial.** In any arithmetic that rounds with relative error `u` and does not
overflow, from the default partition and for all schedules, thresholds and limits, the
stability of the result is at least that of the start minus the error of a gain times the
largest possible number of moves. -/
theorem C114_loss_bounded_partial (hr : RoundsS u B ar) (hu : 0 ≤ u) {r : Nat} (sc : FSched)
    (par : Params K) (c : SClu K) (hc : Constructed c) (hn0 : 0 < c.A.PT.nrows)
    (hs : Sound u r ar c.A) (hB : InRangeS u B r c.A) (hz : fIsAllZeros ar c.A = false)
    (k : Nat) (p : Part) (hres : findLouvain ar sc par c = .ok (k, p)) :
    pairStability c.A.toarray c.part - ((par.nMeta + 1 : Nat) : K)
      * (((par.nSub - 1 : Nat) * c.A.PT.nrows : K) * gainErrorS u r c.A)
      ≤ pairStability c.A.toarray p := by
  have hcons : Consistent p := by
    rcases C113_any_arithmetic_partial ar sc par c hc hn0 with e | ⟨k', p', e, e', _⟩
    · rw [e] at hres
      simp at hres
    · rw [e] at hres
      simp only [Except.ok.injEq, Prod.mk.injEq] at hres
      exact hres.2 ▸ e'
  obtain ⟨hA, h1, h2, h3⟩ := constructed_shape hc
  obtain ⟨⟨PT, w, sym, hwf, hsq, hAe⟩, _⟩ := hc
  have hnr : c.A.PT.nrows = PT.nrows := by
    rw [hAe]
    exact nrows_sortIndices PT
  have hL : SLevel u (c.A.PT.nrows ^ 2 + 10 * c.A.PT.nrows + 16 * r + 20) c.A.PT.nrows (massS c.A) c.A
      c.A.PT.val c.A.w.p0 := by
    have hs' := hs
    rw [hAe] at hs'
    have := level_base hr hu hwf hsq hs' (c.A.PT.nrows ^ 2 + 10 * c.A.PT.nrows + 16 * r + 20)
    rw [hnr] at this ⊢
    rw [hAe]
    exact this
  have hne : ∀ cl ∈ c.part.clusters, cl.Nonempty := by
    rw [h3]
    exact singletons_nonempty _
  have hlen : c.part.clusters.length = c.A.PT.nrows := by
    rw [h3]
    simp [singletons]
  unfold findLouvain at hres
  rw [hz] at hres
  simp only [Bool.false_eq_true, if_false] at hres
  unfold mkS at hres
  rw [mk'_clusterList] at hres
  have hqe : removeEmpty (Part.mk c.A.PT.nrows c.part.clusters (dictOf c.part.clusters)) = c.part := by
    have := removeEmpty_of_nonempty h1 hne
    rw [← this]
    unfold removeEmpty
    simp only [h2]
    congr 1 <;> simp
  rw [hqe] at hres
  simp only at hres
  have := metaLoop_loss hr hu sc par hA hs hB (par.nMeta + 3) 0 ar.one false c.part ⟨c.A, c.part⟩ h1 h2
    hn0 hne (Or.inr ⟨hA, h1, h2, hlen.symm, c.A.PT.val, c.A.w.p0, hL, fun q hq hqc =>
      stability_congr _ _ hqc.1 (by
        intro i hi j hj
        simp only at hq
        rw [h3, aggS_singletons _ _ i j (by omega) (by omega)]
        rfl), rfl⟩) k p (by omega) hres
  rw [← stability_pair _ _ h1.1, ← stability_pair _ _ hcons.1]
  exact this

/-! ### In double precision -/

/-- Double precision is an arithmetic in the sense of `RoundsS`, with `u = 2^(-53)`. -/
theorem doubleS_rounds (B : ℚ) : RoundsS (1 / 2 ^ 53) B doubleS where
  toRounds := Verif.Rounding.double_rounds B
  one := rfl
  lt := fun _ _ => rfl
  mul := fun a b _ => fl_spec (a * b)
  div := fun a b _ _ => fl_spec (a / b)
  ofInt := fun i _ => fl_spec i
  dup := fun l _ => Verif.Rounding.sum_err l

/-- Three nodes; the exchange of the first two is slightly smaller than by chance. -/
def exLossPT : Csr ℚ :=
  ofRows 3 [[(0, 3 / 16), (1, 1 / 16 - 1 / 2 ^ 57)], [(0, 1 / 16 - 1 / 2 ^ 57), (1, 3 / 16)], [(2, 1 / 2)]]

/-- Their weights. -/
def exLossP (i : Nat) : ℚ := if i < 2 then 1 / 4 else 1 / 2

/-- The clustering object with the default partition. -/
def exLossObj : SClu ℚ :=
  ⟨mkAutocov exLossPT (.vectors exLossP exLossP) true,
    removeEmpty ⟨3, singletons 3, dictOf (singletons 3)⟩⟩

theorem exLossObj_constructed : Constructed exLossObj := by
  refine ⟨⟨exLossPT, _, _, ?_, rfl, rfl⟩, rfl⟩
  apply wf_ofRows
  intro r hr e he
  simp only [List.mem_cons, List.not_mem_nil, or_false] at hr
  rcases hr with rfl | rfl | rfl <;>
    simp only [List.mem_cons, List.not_mem_nil, or_false] at he
  · rcases he with rfl | rfl <;> simp
  · rcases he with rfl | rfl <;> simp
  · rw [he]
    simp

/-- Stability reached, if the call succeeds. -/
def reachedS (S : Nat → Nat → ℚ) (r : Except SErr (Nat × Part)) : Option ℚ :=
  match r with
  | .ok (_, p) => some (stability S p)
  | .error _ => none

theorem exLoss_sound : Sound (1 / 2 ^ 53) 0 doubleS exLossObj.A where
  once := by unfold Csr.NoRepeats; decide +kernel
  sym := by
    have h : ∀ i < exLossObj.A.PT.nrows, ∀ j < exLossObj.A.PT.nrows,
        exLossObj.A.PT.val i j = exLossObj.A.PT.val j i := by decide +kernel
    exact fun _ i j hi hj => h i hi j hj
  stored := by unfold StoredPositive; decide +kernel
  weights := by
    show WeightsOk (1 / 2 ^ 53) 0 exLossObj.A.PT.nrows (.vectors exLossP exLossP)
    unfold WeightsOk
    decide +kernel

theorem exLoss_reached : reachedS exLossObj.A.toarray (findLouvain doubleS exF (exPar 1000) exLossObj)
    = some (1 / 2 - 1 / 2 ^ 56) := by decide +kernel

/-- **C114, violated.** In double precision the result can be worse than the start, although
everything assumed above holds: two nodes that exchange less than by chance end in one cluster. -/
theorem C114_double_violated :
    ∃ c : SClu ℚ, Constructed c ∧ Sound (1 / 2 ^ 53) 0 doubleS c.A ∧
      InRangeS (1 / 2 ^ 53) 9 0 c.A ∧ fIsAllZeros doubleS c.A = false ∧ ∃ k p,
      findLouvain doubleS exF (exPar 1000) c = .ok (k, p) ∧ Consistent p ∧
      pairStability c.A.toarray p < pairStability c.A.toarray c.part := by
  have hc := exLossObj_constructed
  refine ⟨exLossObj, hc, exLoss_sound, by unfold InRangeS; decide +kernel, by decide +kernel, ?_⟩
  have h := exLoss_reached
  rcases C113_any_arithmetic_partial doubleS exF (exPar 1000) _ hc (by decide +kernel) with
    e | ⟨k, p, e, h1, _⟩
  · rw [e] at h
    simp [reachedS] at h
  · refine ⟨k, p, e, h1, ?_⟩
    rw [e] at h
    simp only [reachedS, Option.some.injEq] at h
    have h0 : stability exLossObj.A.toarray exLossObj.part = 1 / 2 := by decide +kernel
    rw [← stability_pair _ _ h1.1, ← stability_pair _ _ (constructed_shape hc).2.1.1, h, h0]
    norm_num

/-- Non-vacuity for the bounds of C114: the conditions hold for the example in double precision,
and the bound on the error of a gain is small. -/
example : ∃ (c : SClu ℚ) (B : ℚ), RoundsS (1 / 2 ^ 53) B doubleS ∧ Constructed c ∧
    Sound (1 / 2 ^ 53) 0 doubleS c.A ∧ InRangeS (1 / 2 ^ 53) B 0 c.A ∧ 1 < c.A.PT.nrows ∧
    fIsAllZeros doubleS c.A = false ∧ gainErrorS (1 / 2 ^ 53) 0 c.A < 1 / 10 ^ 13 ∧
    ∃ k p, findLouvain doubleS exF (exPar 1000) c = .ok (k, p) := by
  refine ⟨exLossObj, 9, doubleS_rounds 9, exLossObj_constructed, exLoss_sound,
    by unfold InRangeS; decide +kernel, by decide +kernel, by decide +kernel, by decide +kernel, ?_⟩
  have h := exLoss_reached
  rcases C113_any_arithmetic_partial doubleS exF (exPar 1000) _ exLossObj_constructed
    (by decide +kernel) with e | ⟨k, p, e, h1, _⟩
  · rw [e] at h
    simp [reachedS] at h
  · exact ⟨k, p, e⟩

/-- Non-vacuity for the bounds of C114: the conditions also hold for the example of C113 with
five nodes, whose weights sum to one only up to rounding when the last weight is tiny. -/
example : RoundsS (1 / 2 ^ 53) (100 : ℚ) doubleS ∧ Constructed (exObj (1 / 2 ^ 52)) ∧
    Sound (1 / 2 ^ 53) 4 doubleS (exObj (1 / 2 ^ 52)).A ∧
    InRangeS (1 / 2 ^ 53) 100 4 (exObj (1 / 2 ^ 52)).A ∧
    (match findLouvain doubleS exF (exPar 1000) (exObj (1 / 2 ^ 52)) with
      | .ok (k, p) => decide (1 ≤ k ∧ p.clusters.length = 3)
      | .error _ => false) = true := by
  refine ⟨doubleS_rounds 100, exObj_constructed _, ⟨?_, fun h => ?_, ?_, ?_⟩, ?_, by decide +kernel⟩
  · unfold Csr.NoRepeats
    decide +kernel
  · exact absurd h (by decide +kernel)
  · unfold StoredPositive
    decide +kernel
  · show WeightsOk (1 / 2 ^ 53) 4 (exObj (1 / 2 ^ 52)).A.PT.nrows
      (.vectors (exP (1 / 2 ^ 52)) (exP (1 / 2 ^ 52)))
    unfold WeightsOk
    decide +kernel
  · unfold InRangeS
    decide +kernel

end Verif.SparseRound
