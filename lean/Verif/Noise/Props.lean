import Verif.Noise.Model
import Verif.Noise.Sums
import Verif.Average.Props

/-!
# Contacts that are recorded inexactly: properties C141 and C142
-/

set_option linter.dupNamespace false
set_option linter.unusedSectionVars false

namespace Verif.Noise

open Verif.TempNet Verif.Trans Verif.Flow Verif.EndToEnd Verif.Decay Verif.Autocov Verif.Average Verif.Partition Verif.Louvain Finset
  MeasureTheory

variable {L : Type} [LinearOrder L]

/-! ## Transitions -/

theorem computedTransition_spec {evs : List (Event L ℝ)} (h : GoodContacts evs) (sf : Nat → Bool) {scale : ℝ} (hs : 0 < scale)
    (reverse : Bool) : ∃ T, computedTransition sf evs scale reverse = some T ∧
      EqOn (allLabels evs).length T (walkOver evs (allLabels evs) (timesOf (ofEvents evs).events) scale reverse) := by
  obtain ⟨Lp, hL, hM⟩ := mats_spec h sf
  have hn := numNodes_eq evs
  obtain ⟨hst, hW⟩ := hM scale hs
  have h2 := times_two h
  have hinc := (C32_time_grid (ofEvents evs).events).1
  obtain ⟨ts, hts⟩ : ∃ ts, ts = timesOf (ofEvents evs).events := ⟨_, rfl⟩
  rw [← hts] at hst hW h2 hinc ⊢
  obtain ⟨Ms, hMs⟩ : ∃ Ms, Ms = interMats (allLabels evs).length (expm (allLabels evs).length) ts Lp (1 / scale) false :=
    ⟨_, rfl⟩
  rw [← hMs] at hst hW
  have hlen : Ms.length = ts.length - 1 := by rw [hW.length_eq, List.length_map, List.length_range]
  have hne : Ms ≠ [] := List.length_pos_iff.1 (by omega)
  have hlen' : ts.length = Ms.length + 1 := by omega
  unfold computedTransition
  simp only [hL]
  rw [hn, ← hts, ← hMs]
  set inp : Input ℝ := ⟨(allLabels evs).length, false, some (.inter Ms), none, some ts, none, reverse, 1 / 10 ^ 8, false, Real.sqrt⟩ with hinp
  have hreg : Regular inp Ms ts := by
    refine ⟨rfl, rfl, hne, hst, hinc, hlen', uniform_dist (nodes_pos h.nonempty), ?_⟩
    intro hsp
    cases hsp
  obtain ⟨o, ho, hk⟩ := construct_default hreg rfl
  obtain ⟨T, S, hc, -, hT⟩ := C47_clustered_partial hreg ho hk (rest := [Ms.length]) (by simp) (by simp; omega) 0 (by simp)
  obtain ⟨T', rfl, hT'⟩ := hT rfl
  simp only [ho, hc]
  refine ⟨T', rfl, hT'.trans ?_⟩
  unfold walkOver
  show EqOn _ (prod _ ((if reverse then Ms.reverse else Ms).take Ms.length)) _
  have e : (if reverse then Ms.reverse else Ms).take Ms.length = if reverse then Ms.reverse else Ms := by
    apply List.take_of_length_le
    split <;> simp
  rw [e]
  apply Trans.prod_congr
  split
  · exact List.forall₂_reverse_iff.2 hW
  · exact hW

/-- **C141**: if two tables have different contacts only for a short time, the library computes
transition matrices that are close to each other: for walkers from every node, forward and backward
in time, the distance is at most twice that time in units of the waiting time of the walk. -/
theorem C141_transitions {evs evs' : List (Event L ℝ)} (h : GoodContacts evs) (h' : GoodContacts evs') {nodes : List L}
    (hn : NodesOf evs nodes) (hn' : NodesOf evs' nodes) (sf sf' : Nat → Bool) {scale : ℝ} (hs : 0 < scale) (reverse : Bool) :
    ∃ T T', computedTransition sf evs scale reverse = some T ∧ computedTransition sf' evs' scale reverse = some T' ∧
      ∀ i < nodes.length, rowDist nodes.length T T' i ≤ 2 / scale * timeApart evs evs' nodes := by
  obtain ⟨T, hT, e⟩ := computedTransition_spec h sf hs reverse
  obtain ⟨T', hT', e'⟩ := computedTransition_spec h' sf' hs reverse
  refine ⟨T, T', hT, hT', fun i hi => ?_⟩
  rw [← nodes_unique hn] at e
  rw [← nodes_unique hn'] at e'
  rw [rowDist_congr e e' hi]
  exact walkOver_close h.nonempty h'.nonempty (timesOf_spec evs) (timesOf_spec evs') hs reverse hi

theorem nodes_moved {ε : ℝ} {evs evs' : List (Event L ℝ)} (h : Shifted ε evs evs') {nodes : List L} (hn : NodesOf evs nodes) :
    NodesOf evs' nodes := by
  refine ⟨hn.1, fun l => (hn.2 l).trans ⟨?_, ?_⟩⟩
  · rintro ⟨e, he, hl⟩
    obtain ⟨e', he', r1, r2, -⟩ := forall₂_mem_left h he
    exact ⟨e', he', by rw [← r1, ← r2]; exact hl⟩
  · rintro ⟨e', he', hl⟩
    obtain ⟨e, he, r1, r2, -⟩ := forall₂_mem_left (List.Forall₂.flip (R := flip _) h) he'
    exact ⟨e, he, by rw [r1, r2]; exact hl⟩

theorem shift_nonneg {ε : ℝ} {evs evs' : List (Event L ℝ)} (h : Shifted ε evs evs') (hne : evs ≠ []) : 0 ≤ ε := by
  obtain ⟨e, he⟩ := List.exists_mem_of_ne_nil _ hne
  obtain ⟨e', -, -, -, r, -⟩ := forall₂_mem_left h he
  exact (abs_nonneg _).trans r

/-- **C141**, errors of the recorded times.  If the starting and ending times of the contacts are
wrong by at most `ε`, the rows of the transition matrix change by at most `4 ε` per contact, in units
of the waiting time. -/
theorem C141_recorded {ε : ℝ} {evs evs' : List (Event L ℝ)} (h : GoodContacts evs) (h' : GoodContacts evs')
    (hS : Shifted ε evs evs') {nodes : List L} (hn : NodesOf evs nodes) (sf sf' : Nat → Bool) {scale : ℝ} (hs : 0 < scale)
    (reverse : Bool) :
    ∃ T T', computedTransition sf evs scale reverse = some T ∧ computedTransition sf' evs' scale reverse = some T' ∧
      ∀ i < nodes.length, rowDist nodes.length T T' i ≤ 4 * ε * evs.length / scale := by
  obtain ⟨T, T', hT, hT', hb⟩ := C141_transitions h h' hn (nodes_moved hS hn) sf sf' hs reverse
  refine ⟨T, T', hT, hT', fun i hi => (hb i hi).trans ?_⟩
  have := timeApart_moved (nodes := nodes) (shift_nonneg hS h.nonempty) hS
  calc 2 / scale * timeApart evs evs' nodes ≤ 2 / scale * (2 * ε * evs.length) :=
        mul_le_mul_of_nonneg_left this (by positivity)
    _ = _ := by ring

/-! ## The covariance of the flow -/

/-- All times of the contacts, those that occur more than once too. -/
noncomputable def allTimes (evs : List (Event L ℝ)) : List ℝ :=
  (evs.flatMap fun e => [e.start, e.stop]).insertionSort (· ≤ ·)

theorem allTimes_sorted (evs : List (Event L ℝ)) : (allTimes evs).Pairwise (· ≤ ·) := List.pairwise_insertionSort _ _

theorem mem_allTimes {evs : List (Event L ℝ)} {t : ℝ} : t ∈ allTimes evs ↔ ∃ e ∈ evs, t = e.start ∨ t = e.stop := by
  unfold allTimes
  rw [List.mem_insertionSort]
  simp

theorem allTimes_length (evs : List (Event L ℝ)) : (allTimes evs).length = 2 * evs.length := by
  unfold allTimes
  rw [List.length_insertionSort]
  induction evs with
  | nil => rfl
  | cons e l ih => simp only [List.flatMap_cons, List.length_append, List.length_cons, List.length_nil, ih]; ring

theorem allTimes_moved {ε : ℝ} {evs evs' : List (Event L ℝ)} (h : Shifted ε evs evs') {k : ℕ} (hk : k < (allTimes evs).length)
    (hk' : k < (allTimes evs').length) : |(allTimes evs)[k] - (allTimes evs')[k]| ≤ ε := by
  have p1 : (allTimes evs).Perm (evs.flatMap fun e => [e.start, e.stop]) := List.perm_insertionSort _ _
  have p2 : (allTimes evs').Perm (evs'.flatMap fun e => [e.start, e.stop]) := List.perm_insertionSort _ _
  refine sorted_moved ?_ p1 p2 (allTimes_sorted _) (allTimes_sorted _) hk hk'
  clear p1 p2
  unfold Shifted at h
  clear hk hk'
  induction h with
  | nil => exact .nil
  | @cons e e' l l' hd _ ih => exact .cons hd.2.2.1 (.cons hd.2.2.2 ih)

theorem sorted_ends {σ times : List ℝ} (hσ : σ.Pairwise (· ≤ ·)) (ht : times.Pairwise (· < ·)) (hm : ∀ t, t ∈ σ ↔ t ∈ times) :
    at' σ (σ.length - 1) - at' σ 0 = at' times (times.length - 1) - at' times 0 := by
  have h := lowerSum_dedup false (fun _ => 1) hσ ht hm
  unfold lowerSum at h
  simp only [mul_one] at h
  rwa [sum_gaps, sum_gaps] at h

theorem gap_le {evs evs' : List (Event L ℝ)} {nodes : List L} {ts : List ℝ} (hc : Covers evs ts) (hc' : Covers evs' ts) {s u : ℝ}
    (h1 : at' ts 0 ≤ s) (h2 : s ≤ u) (h3 : u ≤ at' ts (ts.length - 1)) :
    gap (apart evs evs' nodes) s u ≤ timeApart evs evs' nodes := by
  rw [← gap_whole hc hc', ← gap_add _ h1 (h2.trans h3), ← gap_add _ h2 h3]
  have := gap_nonneg (apart evs evs' nodes) (at' ts 0) s
  have := gap_nonneg (apart evs evs' nodes) u (at' ts (ts.length - 1))
  linarith

theorem totalDist_div {n : Nat} {A B : Mat ℝ} {D D' : ℝ} (hD : 0 < D) (hD' : 0 < D') :
    totalDist n (fun i j => A i j / D) (fun i j => B i j / D') ≤
      totalDist n A B / D + totalDist n B (fun _ _ => 0) / D' * (|D' - D| / D) := by
  have hij : ∀ i j, |A i j / D - B i j / D'| ≤ |A i j - B i j| / D + |B i j - 0| / D' * (|D' - D| / D) := by
    intro i j
    have e : A i j / D - B i j / D' = (A i j - B i j) / D + (B i j - 0) / D' * ((D' - D) / D) := by
      field_simp
      ring
    rw [e]
    refine (abs_add_le _ _).trans (le_of_eq ?_)
    rw [abs_mul, abs_div, abs_div, abs_div, abs_of_pos hD, abs_of_pos hD']
  unfold totalDist rowDist
  refine (sum_le_sum fun i _ => sum_le_sum fun j _ => hij i j).trans (le_of_eq ?_)
  simp only [sum_add_distrib, sum_div, sum_mul]

theorem flowCov_close {ε : ℝ} {evs evs' : List (Event L ℝ)} (h : GoodContacts evs) (h' : GoodContacts evs')
    (hS : Shifted ε evs evs') {nodes : List L} (hn : NodesOf evs nodes) {times times' : List ℝ} (ht : TimesOf evs times)
    (ht' : TimesOf evs' times') {scale : ℝ} (hs : 0 < scale) (reverse : Bool) :
    totalDist nodes.length (flowCov evs nodes times scale reverse) (flowCov evs' nodes times' scale reverse) ≤
      ε * (6 * (2 * evs.length + 1) / scale + 8 * evs.length / (at' times (times.length - 1) - at' times 0)) := by
  have hε := shift_nonneg hS h.nonempty
  obtain ⟨ts, hts⟩ := exists_times (evs ++ evs')
  have hcc := TimesOf.covers hts
  have hc : Covers evs ts := ⟨hcc.1, fun e he => hcc.2 e (List.mem_append_left _ he)⟩
  have hc' : Covers evs' ts := ⟨hcc.1, fun e he => hcc.2 e (List.mem_append_right _ he)⟩
  have hr : 0 ≤ 1 / scale := by positivity
  have hW := walk_exists (rate := 1 / scale) (covers_grid hc nodes) reverse
  have hW' := walk_exists (rate := 1 / scale) (covers_grid hc' nodes) reverse
  set P := walked nodes.length (1 / scale) (gen evs nodes) (at' ts) (ts.length - 1) reverse with hPdef
  set P' := walked nodes.length (1 / scale) (gen evs' nodes) (at' ts) (ts.length - 1) reverse with hPdef'
  have hin := times_inside h.nonempty ht hc
  have hin' := times_inside h'.nonempty ht' hc'
  have hR := walk_restrict (TimesOf.covers ht) hin.1 hin.2 hW
  have hR' := walk_restrict (TimesOf.covers ht') hin'.1 hin'.2 hW'
  set p : Nat → ℝ := fun _ => 1 / (nodes.length : ℝ) with hp
  have hp0 : ∀ i < nodes.length, 0 ≤ p i := fun i _ => by simp only [hp]; positivity
  have hpos : 0 < nodes.length := by rw [nodes_unique hn]; exact nodes_pos h.nonempty
  have hp1 : ∑ i ∈ range nodes.length, p i = 1 := by
    simp only [hp]
    rw [sum_const, card_range, nsmul_eq_mul]
    have : (nodes.length : ℝ) ≠ 0 := by exact_mod_cast hpos.ne'
    field_simp
  -- sums over all times
  set σ := allTimes evs with hσdef
  set σ' := allTimes evs' with hσdef'
  have hlen : evs.length = evs'.length := hS.length_eq
  have hσl : σ.length = 2 * evs.length := allTimes_length evs
  have hσl' : σ'.length = 2 * evs.length := by rw [hlen]; exact allTimes_length evs'
  have hevs : 0 < evs.length := List.length_pos_iff.2 h.nonempty
  have hmσ : ∀ t, t ∈ σ ↔ t ∈ times := fun t => mem_allTimes.trans (ht.2 t).symm
  have hmσ' : ∀ t, t ∈ σ' ↔ t ∈ times' := fun t => mem_allTimes.trans (ht'.2 t).symm
  set N := σ.length - 1 with hN
  have hN' : σ'.length - 1 = N := by omega
  set D := at' times (times.length - 1) - at' times 0 with hD
  set D' := at' times' (times'.length - 1) - at' times' 0 with hD'
  have hDpos : 0 < D := sub_pos.2 (ends_lt h ht)
  have hDpos' : 0 < D' := sub_pos.2 (ends_lt h' ht')
  have hDσ : at' σ N - at' σ 0 = D := sorted_ends (allTimes_sorted evs) ht.1 hmσ
  have hDσ' : at' σ' N - at' σ' 0 = D' := by
    rw [← hN']
    exact sorted_ends (allTimes_sorted evs') ht'.1 hmσ'
  have hF : EqOn nodes.length (flowCov evs nodes times scale reverse)
      fun i j => (lowerSum (at' σ) N reverse fun u => covAt nodes.length p (P u) i j) / D := by
    intro i hi j hj
    rw [flowCov_entry ht hR hi hj]
    show _ = _ / D
    rw [lowerSum_dedup reverse (fun u => covAt nodes.length p (P u) i j) (allTimes_sorted evs) ht.1 hmσ]
  have hF' : EqOn nodes.length (flowCov evs' nodes times' scale reverse)
      fun i j => (lowerSum (at' σ') N reverse fun u => covAt nodes.length p (P' u) i j) / D' := by
    intro i hi j hj
    rw [flowCov_entry ht' hR' hi hj]
    show _ = _ / D'
    rw [← hN', lowerSum_dedup reverse (fun u => covAt nodes.length p (P' u) i j) (allTimes_sorted evs') ht'.1 hmσ']
  have hmono : ∀ {τ : List ℝ}, τ.Pairwise (· ≤ ·) → ∀ k < τ.length - 1, at' τ k ≤ at' τ (k + 1) := by
    intro τ hτ k hk
    unfold at'
    rw [getD_get _ _ (by omega), getD_get _ _ (by omega)]
    exact List.pairwise_iff_getElem.1 hτ k (k + 1) (by omega) (by omega) (Nat.lt_succ_self k)
  have hclose : ∀ k ≤ N, |at' σ k - at' σ' k| ≤ ε := by
    intro k hk
    unfold at'
    rw [getD_get _ _ (by omega), getD_get _ _ (by omega)]
    exact allTimes_moved hS (by rw [← hσdef]; omega) (by rw [← hσdef']; omega)
  have hmem : ∀ k ≤ N, at' σ k ∈ ts := by
    intro k hk
    obtain ⟨e, he, r | r⟩ := mem_allTimes.1 (mem_times (times := σ) (i := k) (by omega))
    · rw [r]; exact (hc.2 e he).1
    · rw [r]; exact (hc.2 e he).2
  have hmem' : ∀ k ≤ N, at' σ' k ∈ ts := by
    intro k hk
    obtain ⟨e, he, r | r⟩ := mem_allTimes.1 (mem_times (times := σ') (i := k) (by omega))
    · rw [r]; exact (hc'.2 e he).1
    · rw [r]; exact (hc'.2 e he).2
  have hst : ∀ u ∈ ts, Stoch nodes.length (P u) := fun u hu =>
    walk_stoch hr (fun _ => walkLaplacian_lap _ _) (covers_grid hc nodes) hW (ge_first hc.1 hu) (le_last hc.1 hu)
  have hst' : ∀ u ∈ ts, Stoch nodes.length (P' u) := fun u hu =>
    walk_stoch hr (fun _ => walkLaplacian_lap _ _) (covers_grid hc' nodes) hW' (ge_first hc.1 hu) (le_last hc.1 hu)
  have htime := timeApart_moved (nodes := nodes) hε hS
  have hsame : ∀ u ∈ ts, totalDist nodes.length (covAt nodes.length p (P u)) (covAt nodes.length p (P' u)) ≤
      3 * (2 * (1 / scale) * (2 * ε * evs.length)) := by
    intro u hu
    refine covAt_close hp0 hp1 (hst u hu) (hst' u hu) fun i hi => ?_
    have hstart := rowDist_eq (hW.start.trans hW'.start.symm) hi
    have hmul : ∀ {s v : ℝ}, at' ts 0 ≤ s → s ≤ v → v ≤ at' ts (ts.length - 1) →
        2 * (1 / scale) * gap (apart evs evs' nodes) s v ≤ 2 * (1 / scale) * (2 * ε * evs.length) := fun a b c =>
      mul_le_mul_of_nonneg_left ((gap_le hc hc' a b c).trans htime) (by positivity)
    cases reverse
    · have := walks_close hc hc' hr hW hW' le_rfl (ge_first hc.1 hu) (le_last hc.1 hu) hi
      simp only [Bool.false_eq_true, if_false] at this hstart
      rw [hstart, zero_add] at this
      exact this.trans (hmul le_rfl (ge_first hc.1 hu) (le_last hc.1 hu))
    · have := walks_close hc hc' hr hW hW' (ge_first hc.1 hu) (le_last hc.1 hu) le_rfl hi
      simp only [if_true] at this hstart
      rw [hstart, zero_add] at this
      exact this.trans (hmul (ge_first hc.1 hu) (le_last hc.1 hu) le_rfl)
  have hlip : ∀ u ∈ ts, ∀ v ∈ ts, |u - v| ≤ ε → totalDist nodes.length (covAt nodes.length p (P' u)) (covAt nodes.length p (P' v)) ≤
      3 * (2 * (1 / scale) * ε) := by
    have hle : ∀ u ∈ ts, ∀ v ∈ ts, u ≤ v → |u - v| ≤ ε →
        totalDist nodes.length (covAt nodes.length p (P' u)) (covAt nodes.length p (P' v)) ≤ 3 * (2 * (1 / scale) * ε) := by
      intro u hu v hv huv hd
      refine covAt_close hp0 hp1 (hst' u hu) (hst' v hv) fun i hi => ?_
      refine (walk_lipschitz hc' hr hW' (ge_first hc.1 hu) huv (le_last hc.1 hv) hi).trans ?_
      refine mul_le_mul_of_nonneg_left ?_ (by positivity)
      have := (abs_le.1 hd).1
      linarith
    intro u hu v hv hd
    rcases le_total u v with huv | huv
    · exact hle u hu v hv huv hd
    · rw [totalDist_comm]
      exact hle v hv u hu huv (by rwa [abs_sub_comm])
  have hκ : ∀ k ≤ N, totalDist nodes.length (covAt nodes.length p (P (at' σ k))) (covAt nodes.length p (P' (at' σ' k))) ≤
      3 * (2 * (1 / scale) * (2 * ε * evs.length)) + 3 * (2 * (1 / scale) * ε) := fun k hk =>
    (totalDist_triangle _ (covAt nodes.length p (P' (at' σ k))) _).trans
      (add_le_add (hsame _ (hmem k hk)) (hlip _ (hmem k hk) _ (hmem' k hk) (hclose k hk)))
  have hM : ∀ k ≤ N, totalDist nodes.length (covAt nodes.length p (P' (at' σ' k))) (fun _ _ => 0) ≤ 2 := fun k hk =>
    covAt_small hp0 hp1 (hst' _ (hmem' k hk))
  have hsum := lowerSum_close (c := fun u => covAt nodes.length p (P u)) (c' := fun u => covAt nodes.length p (P' u))
    (hmono (allTimes_sorted evs)) hclose reverse hκ hM
  have hsmall := lowerSum_small (c := fun u => covAt nodes.length p (P' u)) (n := nodes.length) (τ := at' σ') (N := N)
    (by rw [← hN']; exact hmono (allTimes_sorted evs')) reverse hM
  rw [hDσ] at hsum
  rw [hDσ'] at hsmall
  rw [totalDist_congr hF hF']
  refine (totalDist_div hDpos hDpos').trans ?_
  have hDD : |D' - D| ≤ 2 * ε := by
    rw [← hDσ, ← hDσ']
    have a := hclose N le_rfl
    have b := hclose 0 (Nat.zero_le _)
    rw [abs_le] at a b ⊢
    constructor <;> linarith [a.1, a.2, b.1, b.2]
  have b1 := div_le_div_of_nonneg_right hsum hDpos.le
  have b2 : totalDist nodes.length (fun i j => lowerSum (at' σ') N reverse fun u => covAt nodes.length p (P' u) i j) (fun _ _ => 0) / D' *
      (|D' - D| / D) ≤ 2 * (2 * ε / D) := by
    refine mul_le_mul ?_ (div_le_div_of_nonneg_right hDD hDpos.le) (div_nonneg (abs_nonneg _) hDpos.le) (by norm_num)
    rw [div_le_iff₀ hDpos']
    linarith [hsmall]
  refine (add_le_add b1 b2).trans (le_of_eq ?_)
  have hNr : (N : ℝ) = 2 * evs.length - 1 := by
    have : N + 1 = 2 * evs.length := by omega
    have : ((N + 1 : ℕ) : ℝ) = ((2 * evs.length : ℕ) : ℝ) := by rw [this]
    push_cast at this
    linarith
  rw [hNr]
  field_simp
  ring

/-- **C142**: if the starting and ending times of the contacts are wrong by at most `ε`, the
covariance of the flow that is clustered changes in total by at most `ε` times
`6 (2 m + 1) / scale + 8 m / d`, where `m` is the number of contacts, `scale` the waiting time and `d`
a time between the start of a contact and the end of one. -/
theorem C142_covariance {ε : ℝ} {evs evs' : List (Event L ℝ)} (h : GoodContacts evs) (h' : GoodContacts evs')
    (hS : Shifted ε evs evs') {nodes : List L} (hn : NodesOf evs nodes) (sf sf' : Nat → Bool) {scale : ℝ} (hs : 0 < scale)
    (reverse : Bool) {e f : Event L ℝ} (he : e ∈ evs) (hf : f ∈ evs) (hd : e.start < f.stop) :
    ∃ S S', computedFlow sf evs scale reverse = some S ∧ computedFlow sf' evs' scale reverse = some S' ∧
      totalDist nodes.length S S' ≤
        ε * (6 * (2 * evs.length + 1) / scale + 8 * evs.length / (f.stop - e.start)) := by
  obtain ⟨S, hc, hE⟩ := computedFlow_spec h sf hs reverse
  obtain ⟨S', hc', hE'⟩ := computedFlow_spec h' sf' hs reverse
  rw [← nodes_unique hn] at hE
  rw [← nodes_unique (nodes_moved hS hn)] at hE'
  refine ⟨S, S', hc, hc', ?_⟩
  rw [totalDist_congr hE hE']
  have ht := timesOf_spec evs
  refine (flowCov_close h h' hS hn ht (timesOf_spec evs') hs reverse).trans ?_
  refine mul_le_mul_of_nonneg_left (add_le_add le_rfl ?_) (shift_nonneg hS h.nonempty)
  refine div_le_div_of_nonneg_left (by positivity) (sub_pos.2 hd) ?_
  have a := ge_first ht.1 ((ht.2 _).2 ⟨e, he, .inl rfl⟩)
  have b := le_last ht.1 ((ht.2 _).2 ⟨f, hf, .inr rfl⟩)
  linarith

theorem stability_close {n : Nat} {p : Part} (hp : IsPartition n p.clusters) (A B : Mat ℝ) :
    |stability A p - stability B p| ≤ totalDist n A B := by
  classical
  let q : Part := { p with numNodes := n }
  have hA : stability A p = pairStability A q := stability_pair A q hp
  have hB : stability B p = pairStability B q := stability_pair B q hp
  rw [hA, hB]
  unfold pairStability totalDist rowDist
  rw [← sum_sub_distrib]
  refine (abs_sum_le_sum_abs _ _).trans (sum_le_sum fun i _ => ?_)
  rw [← sum_sub_distrib]
  refine (abs_sum_le_sum_abs _ _).trans (sum_le_sum fun j _ => ?_)
  split_ifs
  · exact le_rfl
  · simp

/-- **C142**, stability.  Under the same errors the flow stability of no partition changes by
more. -/
theorem C142_stability {ε : ℝ} {evs evs' : List (Event L ℝ)} (h : GoodContacts evs) (h' : GoodContacts evs')
    (hS : Shifted ε evs evs') {nodes : List L} (hn : NodesOf evs nodes) (sf sf' : Nat → Bool) {scale : ℝ} (hs : 0 < scale)
    (reverse : Bool) {e f : Event L ℝ} (he : e ∈ evs) (hf : f ∈ evs) (hd : e.start < f.stop) :
    ∃ S S', computedFlow sf evs scale reverse = some S ∧ computedFlow sf' evs' scale reverse = some S' ∧
      ∀ p : Part, IsPartition nodes.length p.clusters →
        |stability S p - stability S' p| ≤
          ε * (6 * (2 * evs.length + 1) / scale + 8 * evs.length / (f.stop - e.start)) := by
  obtain ⟨S, S', hc, hc', hb⟩ := C142_covariance h h' hS hn sf sf' hs reverse he hf hd
  exact ⟨S, S', hc, hc', fun p hp => (stability_close hp S S').trans hb⟩

/-! ## The hypotheses can be met -/

/-- Three contacts, and the same with a late start, an early end and a late end. -/
example : GoodContacts ([⟨1, 2, 0, 1⟩, ⟨2, 3, 1, 3⟩, ⟨3, 1, 2, 4⟩] : List (Event Nat ℝ)) ∧
    GoodContacts ([⟨1, 2, 1 / 10, 1⟩, ⟨2, 3, 9 / 10, 29 / 10⟩, ⟨3, 1, 2, 41 / 10⟩] : List (Event Nat ℝ)) ∧
    Shifted (1 / 10) ([⟨1, 2, 0, 1⟩, ⟨2, 3, 1, 3⟩, ⟨3, 1, 2, 4⟩] : List (Event Nat ℝ))
      [⟨1, 2, 1 / 10, 1⟩, ⟨2, 3, 9 / 10, 29 / 10⟩, ⟨3, 1, 2, 41 / 10⟩] ∧
    NodesOf ([⟨1, 2, 0, 1⟩, ⟨2, 3, 1, 3⟩, ⟨3, 1, 2, 4⟩] : List (Event Nat ℝ)) [1, 2, 3] := by
  refine ⟨⟨by simp, ?_, by simp, by simp⟩, ⟨by simp, ?_, by simp, by simp⟩, ?_, by simp, ?_⟩
  · simp; norm_num
  · simp; norm_num
  · refine .cons ⟨rfl, rfl, ?_, ?_⟩ (.cons ⟨rfl, rfl, ?_, ?_⟩ (.cons ⟨rfl, rfl, ?_, ?_⟩ .nil)) <;> rw [abs_le] <;> constructor <;> norm_num
  · intro l
    simp
    omega

/-- One contact that lasts half as long: the tables differ for half a unit of time. -/
example : timeApart [⟨1, 2, 0, 1⟩] [⟨1, 2, 0, 1 / 2⟩] [1, 2] = 1 / 2 := by
  have : apart ([⟨1, 2, 0, 1⟩] : List (Event Nat ℝ)) [⟨1, 2, 0, 1 / 2⟩] [1, 2] = Set.Ico (1 / 2) 1 := by
    ext u
    constructor
    · rintro ⟨i, j, hij⟩
      by_contra hu
      apply hij
      simp only [InContact, List.mem_singleton, exists_eq_left]
      have : u < 1 ↔ u < 1 / 2 := by
        constructor
        · intro h1
          by_contra h2
          exact hu ⟨not_lt.1 h2, h1⟩
        · intro h; linarith
      rw [this]
    · rintro ⟨h1, h2⟩
      refine ⟨0, 1, fun hh => ?_⟩
      obtain ⟨e, he, -, h3, -⟩ := hh.1 ⟨⟨1, 2, 0, 1⟩, by simp, show (0 : ℝ) ≤ u by linarith, h2, .inl ⟨rfl, rfl⟩⟩
      simp only [List.mem_singleton] at he
      subst he
      exact absurd h3 (not_lt.2 h1)
  unfold timeApart
  rw [this, Real.volume_Ico, ENNReal.toReal_ofReal] <;> norm_num

end Verif.Noise
