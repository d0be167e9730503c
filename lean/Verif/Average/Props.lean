import Verif.Average.Contacts
import Mathlib.Analysis.SpecialFunctions.Exponential

/-!
# The flow covariance and the mean over time of the walk: properties C127 and C128
-/

set_option linter.dupNamespace false
set_option linter.unusedSectionVars false

namespace Verif.Average

open Verif.TempNet Verif.Trans Verif.Flow Verif.EndToEnd Verif.Decay Verif.Autocov Verif.Partition Verif.Louvain Finset
  MeasureTheory

variable {L : Type} [LinearOrder L]

/-- Walkers start at all nodes with the same probability. -/
noncomputable def everywhere (n : Nat) : Nat → ℝ := fun _ => 1 / (n : ℝ)

theorem ends {times : List ℝ} {a b : ℝ} (ha : times.head? = some a) (hb : times.getLast? = some b) :
    at' times 0 = a ∧ at' times (times.length - 1) = b := by
  cases times with
  | nil => cases ha
  | cons c r =>
    simp only [List.head?_cons, Option.some.injEq] at ha
    refine ⟨ha, ?_⟩
    rw [List.getLast?_eq_getElem?] at hb
    unfold at'
    rw [List.getD_eq_getElem?_getD, hb]
    rfl

theorem times_len {evs : List (Event L ℝ)} (h : GoodContacts evs) {times : List ℝ} (ht : TimesOf evs times) : 2 ≤ times.length := by
  rw [times_unique ht]
  exact times_two h

theorem ends_lt {evs : List (Event L ℝ)} (h : GoodContacts evs) {times : List ℝ} (ht : TimesOf evs times) :
    at' times 0 < at' times (times.length - 1) :=
  times_lt ht.1 (by have := times_len h ht; omega) (by have := times_len h ht; omega)

/-- **C127**, the walk.  The walk on the contacts exists, and there is only one. -/
theorem C127_walk {evs : List (Event L ℝ)} {times : List ℝ} (ht : TimesOf evs times) (nodes : List L) (scale : ℝ)
    (reverse : Bool) {a b : ℝ} (ha : times.head? = some a) (hb : times.getLast? = some b) :
    ∃ P, ContactWalk evs nodes scale a b reverse P ∧
      ∀ Q, ContactWalk evs nodes scale a b reverse Q → ∀ u, a ≤ u → u ≤ b → EqOn nodes.length (P u) (Q u) := by
  obtain ⟨rfl, rfl⟩ := ends ha hb
  have hG := contact_grid ht nodes
  exact ⟨_, walk_exists hG reverse, fun Q hQ u h1 h2 => walk_unique hG (walk_exists hG reverse) hQ h1 h2⟩

theorem along_integrable {evs : List (Event L ℝ)} {times : List ℝ} (h : GoodContacts evs) (ht : TimesOf evs times)
    {nodes : List L} {scale : ℝ} (hs : 0 < scale) {reverse : Bool} {P : ℝ → Mat ℝ}
    (hP : ContactWalk evs nodes scale (at' times 0) (at' times (times.length - 1)) reverse P) (x : Nat → ℝ) :
    IntervalIntegrable (along nodes.length (fun _ => 1 / (nodes.length : ℝ)) x P) volume (at' times 0)
      (at' times (times.length - 1)) := by
  have hm := along_mono ht hs hP x
  have hle := (ends_lt h ht).le
  cases reverse
  · apply AntitoneOn.intervalIntegrable
    rw [Set.uIcc_of_le hle]
    exact hm
  · apply MonotoneOn.intervalIntegrable
    rw [Set.uIcc_of_le hle]
    exact hm

theorem flow_mean {evs : List (Event L ℝ)} (h : GoodContacts evs) {scale : ℝ} (hs : 0 < scale) {reverse : Bool}
    {nodes : List L} (hn : NodesOf evs nodes) {times : List ℝ} (ht : TimesOf evs times) {P : ℝ → Mat ℝ}
    (hP : ContactWalk evs nodes scale (at' times 0) (at' times (times.length - 1)) reverse P) {gap : ℝ}
    (hgap : ∀ k, k + 1 < times.length → times.getD (k + 1) 0 - times.getD k 0 ≤ gap) (x : Nat → ℝ) :
    form nodes.length (flowCov evs nodes times scale reverse) x ≤
        meanOver (at' times 0) (at' times (times.length - 1)) (along nodes.length (everywhere nodes.length) x P) ∧
      meanOver (at' times 0) (at' times (times.length - 1)) (along nodes.length (everywhere nodes.length) x P) ≤
        form nodes.length (flowCov evs nodes times scale reverse) x +
          gap / (at' times (times.length - 1) - at' times 0) * form nodes.length (covAt nodes.length (everywhere nodes.length) eye) x := by
  have hD : 0 < at' times (times.length - 1) - at' times 0 := sub_pos.2 (ends_lt h ht)
  have h2 := times_len h ht
  have hG := contact_grid ht nodes
  obtain ⟨b1, b2⟩ := lowerSum_bounds hG.mono (along_mono ht hs hP x) (gap := gap) fun k hk => hgap k (by omega)
  have hdist : Distribution nodes.length (everywhere nodes.length) := by
    rw [nodes_unique hn]
    exact uniform_dist (nodes_pos h.nonempty)
  have hend : 0 ≤ along nodes.length (everywhere nodes.length) x P
      (if reverse then at' times 0 else at' times (times.length - 1)) := by
    have hst : Stoch nodes.length (P (if reverse then at' times 0 else at' times (times.length - 1))) := by
      refine walk_stoch (rate := 1 / scale) (by positivity) (fun _ => walkLaplacian_lap _ _) hG hP ?_ ?_
      · split
        · exact le_rfl
        · exact (ends_lt h ht).le
      · split
        · exact (ends_lt h ht).le
        · exact le_rfl
    exact (covAt_covariance hdist hst).2.2 x
  have hstart : along nodes.length (everywhere nodes.length) x P (if reverse then at' times (times.length - 1) else at' times 0) =
      form nodes.length (covAt nodes.length (everywhere nodes.length) eye) x := form_congr (covAt_congr _ hP.start) x
  have hgap0 : 0 ≤ gap := by
    have h1 := hgap 0 (by omega)
    have := times_lt ht.1 (Nat.lt_succ_self 0) (by omega)
    unfold at' at this
    linarith
  have hdef : ∀ u, along nodes.length (fun _ => 1 / (nodes.length : ℝ)) x P u = along nodes.length (everywhere nodes.length) x P u :=
    fun _ => rfl
  rw [flowCov_sum ht hP x]
  unfold meanOver
  constructor
  · exact div_le_div_of_nonneg_right b1 hD.le
  · rw [div_mul_eq_mul_div, ← add_div]
    refine div_le_div_of_nonneg_right (b2.trans ?_) hD.le
    rw [hdef, hdef, hstart]
    have := mul_nonneg hgap0 hend
    linarith

/-- **C127**, covariances.  The covariance that is clustered is not larger than the mean over
time of the covariance of the walk on the contacts, and smaller at most by the longest time
between events, relative to the whole time, times the covariance at the start. -/
theorem C127_average {evs : List (Event L ℝ)} (h : GoodContacts evs) (sf : Nat → Bool) {scale : ℝ} (hs : 0 < scale)
    (reverse : Bool) {nodes : List L} (hn : NodesOf evs nodes) {times : List ℝ} (ht : TimesOf evs times) {a b : ℝ}
    (ha : times.head? = some a) (hb : times.getLast? = some b) {P : ℝ → Mat ℝ} (hP : ContactWalk evs nodes scale a b reverse P)
    {gap : ℝ} (hgap : ∀ k, k + 1 < times.length → times.getD (k + 1) 0 - times.getD k 0 ≤ gap) :
    ∃ S, computedFlow sf evs scale reverse = some S ∧ ∀ x : Nat → ℝ,
      IntervalIntegrable (fun u => form nodes.length (covAt nodes.length (everywhere nodes.length) (P u)) x) volume a b ∧
      form nodes.length S x ≤
        meanOver a b (fun u => form nodes.length (covAt nodes.length (everywhere nodes.length) (P u)) x) ∧
      meanOver a b (fun u => form nodes.length (covAt nodes.length (everywhere nodes.length) (P u)) x) ≤
        form nodes.length S x + gap / (b - a) * form nodes.length (covAt nodes.length (everywhere nodes.length) eye) x := by
  obtain ⟨rfl, rfl⟩ := ends ha hb
  obtain ⟨S, hS, hE⟩ := computedFlow_spec h sf hs reverse
  rw [← nodes_unique hn, ← times_unique ht] at hE
  refine ⟨S, hS, fun x => ⟨along_integrable h ht hs hP x, ?_⟩⟩
  rw [form_congr hE x]
  exact flow_mean h hs hn ht hP hgap x

theorem meanOver_sum {a b : ℝ} (l : List (ℝ → ℝ)) (h : ∀ f ∈ l, IntervalIntegrable f volume a b) :
    IntervalIntegrable (fun u => (l.map fun f => f u).sum) volume a b ∧
      meanOver a b (fun u => (l.map fun f => f u).sum) = (l.map (meanOver a b)).sum := by
  induction l with
  | nil => simp [meanOver]
  | cons f l ih =>
    obtain ⟨i1, i2⟩ := ih fun f hf => h f (by simp [hf])
    have hf := h f (by simp)
    simp only [List.map_cons, List.sum_cons]
    refine ⟨hf.add i1, ?_⟩
    rw [← i2]
    unfold meanOver
    rw [intervalIntegral.integral_add hf i1, add_div]

/-- **C127**, stability.  For every partition the flow stability is not larger than the mean over
time of the stability of the walk on the contacts, and smaller at most by the longest time between
events, relative to the whole time, times one minus the sum of the squared sizes of the
clusters. -/
theorem C127_stability {evs : List (Event L ℝ)} (h : GoodContacts evs) (sf : Nat → Bool) {scale : ℝ} (hs : 0 < scale)
    (reverse : Bool) {nodes : List L} (hn : NodesOf evs nodes) {times : List ℝ} (ht : TimesOf evs times) {a b : ℝ}
    (ha : times.head? = some a) (hb : times.getLast? = some b) {P : ℝ → Mat ℝ} (hP : ContactWalk evs nodes scale a b reverse P)
    {gap : ℝ} (hgap : ∀ k, k + 1 < times.length → times.getD (k + 1) 0 - times.getD k 0 ≤ gap) :
    ∃ S, computedFlow sf evs scale reverse = some S ∧ ∀ p : Part, IsPartition nodes.length p.clusters →
      IntervalIntegrable (fun u => stability (covAt nodes.length (everywhere nodes.length) (P u)) p) volume a b ∧
      stability S p ≤ meanOver a b (fun u => stability (covAt nodes.length (everywhere nodes.length) (P u)) p) ∧
      meanOver a b (fun u => stability (covAt nodes.length (everywhere nodes.length) (P u)) p) ≤
        stability S p + gap / (b - a) * (1 - (p.clusters.map fun c => ((c.card : ℝ) / nodes.length) ^ 2).sum) := by
  obtain ⟨S, hS, hx⟩ := C127_average h sf hs reverse hn ht ha hb hP hgap
  refine ⟨S, hS, fun p hp => ?_⟩
  have hdist : Distribution nodes.length (everywhere nodes.length) := by
    rw [nodes_unique hn]
    exact uniform_dist (nodes_pos h.nonempty)
  have e : ∀ u, stability (covAt nodes.length (everywhere nodes.length) (P u)) p =
      ((p.clusters.map fun c => fun u => form nodes.length (covAt nodes.length (everywhere nodes.length) (P u)) (member c)).map
        fun f => f u).sum := by
    intro u
    rw [stability_form hp, List.map_map]
    rfl
  simp only [e]
  obtain ⟨i1, i2⟩ := meanOver_sum (a := a) (b := b)
    (p.clusters.map fun c => fun u => form nodes.length (covAt nodes.length (everywhere nodes.length) (P u)) (member c)) (by
      intro f hf
      obtain ⟨c, -, rfl⟩ := List.mem_map.1 hf
      exact (hx (member c)).1)
  refine ⟨i1, ?_⟩
  rw [i2, List.map_map]
  have hsh : (p.clusters.map fun c => ((c.card : ℝ) / nodes.length) ^ 2) = p.clusters.map fun c => share (everywhere nodes.length) c ^ 2 := by
    apply List.map_congr_left
    intro c _
    unfold share everywhere
    rw [sum_const, nsmul_eq_mul, mul_one_div]
  rw [hsh, ← stability_eye hdist hp, stability_form hp, stability_form hp, ← List.sum_map_mul_left, ← List.sum_map_add]
  exact ⟨List.sum_le_sum fun c _ => (hx (member c)).2.1, List.sum_le_sum fun c _ => (hx (member c)).2.2⟩

/-! ## Cutting contacts -/

theorem head_le {times : List ℝ} (hs : times.Pairwise (· < ·)) {t : ℝ} (h : t ∈ times) : at' times 0 ≤ t := by
  obtain ⟨i, hi, rfl⟩ := times_mem h
  rcases Nat.eq_zero_or_pos i with rfl | h0
  · exact le_rfl
  · exact (times_lt hs h0 hi).le

theorem le_last {times : List ℝ} (hs : times.Pairwise (· < ·)) {t : ℝ} (h : t ∈ times) : t ≤ at' times (times.length - 1) := by
  obtain ⟨i, hi, rfl⟩ := times_mem h
  rcases Nat.eq_or_lt_of_le (show i ≤ times.length - 1 by omega) with rfl | h0
  · exact le_rfl
  · exact (times_lt hs h0 (by omega)).le

/-- Every contact is seen at its start. -/
theorem contact_of {evs : List (Event L ℝ)} {nodes : List L} (hn : NodesOf evs nodes) {e : Event L ℝ} (he : e ∈ evs) {u : ℝ}
    (h1 : e.start ≤ u) (h2 : u < e.stop) : ∃ i j, InContact evs nodes u i j := by
  obtain ⟨i, hi⟩ := List.getElem?_of_mem ((hn.2 e.src).2 ⟨e, he, .inl rfl⟩)
  obtain ⟨j, hj⟩ := List.getElem?_of_mem ((hn.2 e.tgt).2 ⟨e, he, .inr rfl⟩)
  exact ⟨i, j, e, he, h1, h2, .inl ⟨hi, hj⟩⟩

theorem same_ends {evs evs' : List (Event L ℝ)} (h : GoodContacts evs) (h' : GoodContacts evs') {nodes : List L}
    (hn' : NodesOf evs' nodes) (hS : SameMoments evs evs' nodes) {times times' : List ℝ} (ht : TimesOf evs times)
    (ht' : TimesOf evs' times') (hsub : ∀ t ∈ times, t ∈ times') :
    at' times 0 = at' times' 0 ∧ at' times (times.length - 1) = at' times' (times'.length - 1) := by
  have l1 := times_len h ht
  have l2 := times_len h' ht'
  constructor
  · refine le_antisymm ?_ (head_le ht'.1 (hsub _ (mem_times (by omega))))
    obtain ⟨e, he, hh⟩ := (ht'.2 (at' times' 0)).1 (mem_times (by omega))
    have hst : at' times' 0 = e.start := by
      rcases hh with hh | hh
      · exact hh
      · have := head_le ht'.1 ((ht'.2 _).2 ⟨e, he, .inl rfl⟩)
        have := h'.lasting e he
        linarith
    obtain ⟨i, j, hij⟩ := contact_of hn' he le_rfl (h'.lasting e he)
    obtain ⟨f, hf, f1, -, -⟩ := (hS _ i j).2 hij
    rw [hst]
    exact (head_le ht.1 ((ht.2 _).2 ⟨f, hf, .inl rfl⟩)).trans f1
  · refine le_antisymm (le_last ht'.1 (hsub _ (mem_times (by omega)))) ?_
    by_contra hlt
    rw [not_le] at hlt
    obtain ⟨e, he, hh⟩ := (ht'.2 (at' times' (times'.length - 1))).1 (mem_times (by omega))
    have hlast := h'.lasting e he
    have hst : at' times' (times'.length - 1) = e.stop := by
      rcases hh with hh | hh
      · have := le_last ht'.1 ((ht'.2 _).2 ⟨e, he, .inr rfl⟩)
        linarith
      · exact hh
    rw [hst] at hlt
    obtain ⟨i, j, hij⟩ := contact_of hn' he (le_max_right (at' times (times.length - 1)) e.start) (max_lt hlt hlast)
    obtain ⟨f, hf, -, f2, -⟩ := (hS _ i j).2 hij
    have := le_last ht.1 ((ht.2 _).2 ⟨f, hf, .inr rfl⟩)
    have := le_max_left (at' times (times.length - 1)) e.start
    linarith

theorem walk_same {evs evs' : List (Event L ℝ)} {nodes : List L} (hS : SameMoments evs evs' nodes) {scale a b : ℝ} {reverse : Bool}
    {P : ℝ → Mat ℝ} (h : ContactWalk evs nodes scale a b reverse P) : ContactWalk evs' nodes scale a b reverse P := by
  have e : (fun u => walkLaplacian (K := ℝ) nodes.length (InContact evs nodes u)) =
      fun u => walkLaplacian nodes.length (InContact evs' nodes u) := by
    funext u
    exact walkLaplacian_congr (hS u)
  unfold ContactWalk at h ⊢
  rwa [e] at h

/-- **C128 (what holds)**.  If the same labels are in contact at all times, but contacts are cut
at more times, then the covariance that is clustered does not become smaller, and becomes larger
at most by the longest time between events, relative to the whole time, times the covariance at the
start.

Missing for the full property: equality, see `C128_cut_violated`. -/
theorem C128_cut_partial {evs evs' : List (Event L ℝ)} (h : GoodContacts evs) (h' : GoodContacts evs') (sf sf' : Nat → Bool)
    {scale : ℝ} (hs : 0 < scale) (reverse : Bool) {nodes : List L} (hn : NodesOf evs nodes) (hn' : NodesOf evs' nodes)
    (hS : SameMoments evs evs' nodes) {times times' : List ℝ} (ht : TimesOf evs times) (ht' : TimesOf evs' times')
    (hsub : ∀ t ∈ times, t ∈ times') {a b : ℝ} (ha : times.head? = some a) (hb : times.getLast? = some b) {gap : ℝ}
    (hgap : ∀ k, k + 1 < times.length → times.getD (k + 1) 0 - times.getD k 0 ≤ gap) :
    ∃ S S', computedFlow sf evs scale reverse = some S ∧ computedFlow sf' evs' scale reverse = some S' ∧
      Below nodes.length S S' ∧ ∀ x : Nat → ℝ,
        form nodes.length S' x ≤ form nodes.length S x +
          gap / (b - a) * form nodes.length (covAt nodes.length (everywhere nodes.length) eye) x := by
  obtain ⟨rfl, rfl⟩ := ends ha hb
  obtain ⟨S, hS1, hE⟩ := computedFlow_spec h sf hs reverse
  obtain ⟨S', hS1', hE'⟩ := computedFlow_spec h' sf' hs reverse
  rw [← nodes_unique hn, ← times_unique ht] at hE
  rw [← nodes_unique hn', ← times_unique ht'] at hE'
  obtain ⟨e0, eN⟩ := same_ends h h' hn' hS ht ht' hsub
  have hG := contact_grid ht nodes
  have hG' := contact_grid ht' nodes
  obtain ⟨P, hP⟩ : ∃ P, ContactWalk evs nodes scale (at' times 0) (at' times (times.length - 1)) reverse P :=
    ⟨_, walk_exists hG reverse⟩
  have hP' : ContactWalk evs' nodes scale (at' times' 0) (at' times' (times'.length - 1)) reverse P := by
    rw [← e0, ← eN]
    exact walk_same hS hP
  have l1 := times_len h ht
  have l2 := times_len h' ht'
  refine ⟨S, S', hS1, hS1', fun x => ?_, fun x => ?_⟩
  · rw [form_congr hE x, form_congr hE' x, flowCov_sum ht hP x, flowCov_sum ht' hP' x, e0, eN]
    refine div_le_div_of_nonneg_right ?_ (sub_pos.2 (ends_lt h' ht')).le
    have hidx : ∀ k < times.length, times'.idxOf (at' times k) < times'.length ∧ at' times' (times'.idxOf (at' times k)) = at' times k := by
      intro k hk
      have hm := hsub _ (mem_times hk)
      have hlt := List.idxOf_lt_length_iff.2 hm
      refine ⟨hlt, ?_⟩
      show times'.getD (times'.idxOf (at' times k)) 0 = _
      rw [getD_get _ _ hlt, List.getElem_idxOf hlt]
    have hinj : ∀ i j, i < times'.length → j < times'.length → at' times' i ≤ at' times' j → i ≤ j := by
      intro i j hi hj hle
      by_contra hc
      exact absurd (times_lt ht'.1 (not_le.1 hc) hi) (not_lt.2 hle)
    have hinj' : ∀ i j, i < times'.length → j < times'.length → at' times' i = at' times' j → i = j := fun i j hi hj hij =>
      le_antisymm (hinj i j hi hj hij.le) (hinj j i hj hi hij.ge)
    refine lowerSum_finer hG'.mono (along_mono ht' hs hP' x) (φ := fun k => times'.idxOf (at' times k)) ?_ ?_ ?_ ?_
    · exact hinj' _ _ (hidx 0 (by omega)).1 (by omega) ((hidx 0 (by omega)).2.trans e0)
    · exact hinj' _ _ (hidx _ (by omega)).1 (by omega) ((hidx _ (by omega)).2.trans eN)
    · intro k hk
      refine hinj _ _ (hidx k (by omega)).1 (hidx (k + 1) (by omega)).1 ?_
      rw [(hidx k (by omega)).2, (hidx (k + 1) (by omega)).2]
      exact hG.mono k hk
    · intro k hk
      exact (hidx k (by omega)).2.symm
  · have hP1 := hP
    obtain ⟨gap', hgap'⟩ : ∃ gap', ∀ k, k + 1 < times'.length → times'.getD (k + 1) 0 - times'.getD k 0 ≤ gap' := by
      refine ⟨at' times' (times'.length - 1) - at' times' 0, fun k hk => ?_⟩
      exact sub_le_sub (le_last ht'.1 (mem_times hk)) (head_le ht'.1 (mem_times (by omega)))
    have m1 := (flow_mean h' hs hn' ht' hP' hgap' x).1
    have m2 := (flow_mean h hs hn ht hP hgap x).2
    rw [← e0, ← eN] at m1
    rw [form_congr hE x, form_congr hE' x]
    exact m1.trans m2

end Verif.Average
