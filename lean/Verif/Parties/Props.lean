import Verif.Parties.Lemmas
import Verif.Clique.Props
import Verif.Scales.Long

/-!
# Communities of groups that meet: property C151
-/

set_option linter.dupNamespace false
set_option linter.unusedSectionVars false

namespace Verif.Parties

open Verif.TempNet Verif.Trans Verif.Flow Verif.EndToEnd Verif.Average Verif.Groups Verif.Noise Verif.Causal Verif.Local Verif.Clique Finset
open Verif.Mirror Verif.Louvain Verif.FlowStability
open Verif.Partition (Together)

variable {L : Type} [LinearOrder L]

theorem span_pos {evs : List (Event L ℝ)} (h : GoodContacts evs) {times : List ℝ} (ht : TimesOf evs times) :
    0 < at' times (times.length - 1) - at' times 0 := by
  have := times_len h ht
  exact sub_pos.2 (times_lt ht.1 (by omega) (by omega))

theorem mean_affine {τ : ℕ → ℝ} {N : ℕ} (h : τ N - τ 0 ≠ 0) (A B : ℝ) (e : ℕ → ℝ) :
    (∑ k ∈ range N, (τ (k + 1) - τ k) * (A * e k + B)) / (τ N - τ 0) = A * ((∑ k ∈ range N, (τ (k + 1) - τ k) * e k) / (τ N - τ 0)) + B := by
  have e1 : ∑ k ∈ range N, (τ (k + 1) - τ k) * (A * e k + B) = A * (∑ k ∈ range N, (τ (k + 1) - τ k) * e k) + (τ N - τ 0) * B := by
    rw [← sum_gaps, mul_sum, sum_mul, ← sum_add_distrib]
    exact sum_congr rfl fun k _ => by ring
  rw [e1]
  field_simp

/-- The covariance within a group that meets. -/
theorem flow_block {evs : List (Event L ℝ)} (h : GoodContacts evs) {nodes : List L} (hn : NodesOf evs nodes) {times : List ℝ}
    (ht : TimesOf evs times) (scale : ℝ) (reverse : Bool) {G : Finset L} (hG : ∀ x ∈ G, x ∈ nodes) (hk : 2 ≤ G.card) {D : Set ℝ}
    (hm : Meets evs G D) {i j : Nat} (hi : i ∈ places nodes G) (hj : j ∈ places nodes G) :
    flowCov evs nodes times scale reverse i j =
      mixed G.card (unmixedShare times D G.card scale reverse) i j / nodes.length - 1 / (nodes.length : ℝ) ^ 2 := by
  have hI : places nodes G ⊆ range nodes.length := Finset.filter_subset _ _
  have hc := TimesOf.covers ht
  have hW := walk_exists (rate := 1 / scale) (covers_grid hc nodes) reverse
  have hspan := span_pos h ht
  have hcard : ((places nodes G).card : ℝ) = G.card := by rw [card_places hn hG]
  rw [flowCov_entry ht hW (mem_range.1 (hI hi)) (mem_range.1 (hI hj))]
  obtain ⟨e, he⟩ : ∃ e : ℕ → ℝ, e = fun m => Real.exp (-(2 * ((G.card : ℝ) / (G.card - 1)) *
      (duration (if reverse then during D (times.getD m 0) (times.getD (times.length - 1) 0)
        else during D (times.getD 0 0) (times.getD (m + 1) 0)) / scale))) := ⟨_, rfl⟩
  have hs : unmixedShare times D G.card scale reverse = (∑ m ∈ range (times.length - 1), (at' times (m + 1) - at' times m) * e m) /
      (at' times (times.length - 1) - at' times 0) := by
    rw [he]
    rfl
  have hcov : ∀ (c : ℝ) (P : Mat ℝ), (∀ i ∈ places nodes G, ∀ j < nodes.length, P i j = Mx (places nodes G) c i j) →
      (Closed nodes.length P fun i => i ∈ places nodes G) →
      covAt nodes.length (fun _ => 1 / (nodes.length : ℝ)) P i j =
        1 / nodes.length * ((if i = j then 1 else 0) - 1 / G.card) * Real.exp (-(c + c)) +
          (1 / nodes.length * (1 / G.card) - 1 / (nodes.length : ℝ) ^ 2) := by
    intro c P h1 h2
    rw [cov_block hI h1 (fun a ha hna k hk' => h2.zero ha (mem_range.1 (hI hk')) fun hh => hna (hh.symm ▸ hk')) hi hj]
    unfold Mx Pm
    rw [if_pos hj, hcard]
    ring
  have hsum : lowerSum (at' times) (times.length - 1) reverse (fun u => covAt nodes.length (fun _ => 1 / (nodes.length : ℝ))
      (walked nodes.length (1 / scale) (gen evs nodes) (at' times) (times.length - 1) reverse u) i j) =
      ∑ m ∈ range (times.length - 1), (at' times (m + 1) - at' times m) *
        (1 / nodes.length * ((if i = j then 1 else 0) - 1 / G.card) * e m +
          (1 / nodes.length * (1 / G.card) - 1 / (nodes.length : ℝ) ^ 2)) := by
    unfold lowerSum
    refine sum_congr rfl fun m hm' => ?_
    have hm' := mem_range.1 hm'
    congr 1
    rw [he]
    cases reverse
    · simp only [Bool.false_eq_true, if_false]
      obtain ⟨h1, h2⟩ := walk_at hn hG hk hm hc hW (show m + 1 ≤ times.length - 1 by omega)
      simp only [Bool.false_eq_true, if_false] at h1
      rw [hcov _ _ h1 h2]
      congr 3
      unfold gap duration during at'
      ring
    · simp only [if_true]
      obtain ⟨h1, h2⟩ := walk_at hn hG hk hm hc hW (show m ≤ times.length - 1 by omega)
      simp only [if_true] at h1
      rw [hcov _ _ h1 h2]
      congr 3
      unfold gap duration during at'
      ring
  rw [hsum, mean_affine hspan.ne', ← hs]
  unfold mixed
  ring

/-- The covariance of a member with others. -/
theorem flow_out {evs : List (Event L ℝ)} (h : GoodContacts evs) {nodes : List L} (hn : NodesOf evs nodes) {times : List ℝ}
    (ht : TimesOf evs times) (scale : ℝ) (reverse : Bool) {G : Finset L} (hG : ∀ x ∈ G, x ∈ nodes) (hk : 2 ≤ G.card) {D : Set ℝ}
    (hm : Meets evs G D) {i j : Nat} (hi : i ∈ places nodes G) (hjn : j < nodes.length) (hj : j ∉ places nodes G) :
    flowCov evs nodes times scale reverse i j = -(1 / (nodes.length : ℝ) ^ 2) := by
  have hI : places nodes G ⊆ range nodes.length := Finset.filter_subset _ _
  have hc := TimesOf.covers ht
  have hW := walk_exists (rate := 1 / scale) (covers_grid hc nodes) reverse
  have hspan := span_pos h ht
  rw [flowCov_entry ht hW (mem_range.1 (hI hi)) hjn]
  have hsum : lowerSum (at' times) (times.length - 1) reverse (fun u => covAt nodes.length (fun _ => 1 / (nodes.length : ℝ))
      (walked nodes.length (1 / scale) (gen evs nodes) (at' times) (times.length - 1) reverse u) i j) =
      ∑ m ∈ range (times.length - 1), (at' times (m + 1) - at' times m) * (0 * (fun _ => 0 : ℕ → ℝ) m + -(1 / (nodes.length : ℝ) ^ 2)) := by
    unfold lowerSum
    refine sum_congr rfl fun m hm' => ?_
    have hm' := mem_range.1 hm'
    have key : ∀ k ≤ times.length - 1, covAt nodes.length (fun _ => 1 / (nodes.length : ℝ))
        (walked nodes.length (1 / scale) (gen evs nodes) (at' times) (times.length - 1) reverse (at' times k)) i j =
        -(1 / (nodes.length : ℝ) ^ 2) := by
      intro k hk'
      rw [covAt_apart (walk_at hn hG hk hm hc hW hk').2 (mem_range.1 (hI hi)) hjn fun hh => hj (hh ▸ hi)]
      ring
    congr 1
    cases reverse
    · simp only [Bool.false_eq_true, if_false]
      rw [key (m + 1) (by omega)]
      ring
    · simp only [if_true]
      rw [key m (by omega)]
      ring
  rw [hsum, mean_affine hspan.ne']
  ring

theorem places_of {nodes : List L} {G : Finset L} {i : Nat} {x : L} (hx : nodes[i]? = some x) : i ∈ places nodes G ↔ x ∈ G := by
  obtain ⟨hi, rfl⟩ := List.getElem?_eq_some_iff.1 hx
  exact mem_places hi

/-- **C151**, covariances.  Let the members of a group of `k` labels be in contact with each other at the moments of `D`, all with
all, and have no other contacts.  Then the covariance that is clustered is known: with `s` the mean over time of the share
`exp (-2 k / (k - 1) d / scale)` of walkers that are not mixed after the group spent the time `d` together, two different members
have the covariance `(1 - s) / (k n) - 1 / n ^ 2`, a member with itself `s / n` more, and a member with anybody else
`-1 / n ^ 2`. -/
theorem C151_covariance {evs : List (Event L ℝ)} (h : GoodContacts evs) {nodes : List L} (hn : NodesOf evs nodes) {times : List ℝ}
    (ht : TimesOf evs times) (sf : Nat → Bool) {scale : ℝ} (hs : 0 < scale) (reverse : Bool) {G : Finset L} (hG : ∀ x ∈ G, x ∈ nodes)
    (hk : 2 ≤ G.card) {D : Set ℝ} (hm : Meets evs G D) :
    ∃ S, computedFlow sf evs scale reverse = some S ∧ ∀ (i j : Nat) (x y : L), nodes[i]? = some x → nodes[j]? = some y → x ∈ G →
      (y ∈ G → S i j =
        mixed G.card (unmixedShare times D G.card scale reverse) x y / nodes.length - 1 / (nodes.length : ℝ) ^ 2) ∧
      (y ∉ G → S i j = -(1 / (nodes.length : ℝ) ^ 2)) := by
  obtain ⟨S, hS, hE⟩ := computedFlow_spec h sf hs reverse
  rw [← nodes_unique hn, ← times_unique ht] at hE
  refine ⟨S, hS, fun i j x y hx hy hxG => ?_⟩
  have hi := (List.getElem?_eq_some_iff.1 hx).1
  have hj := (List.getElem?_eq_some_iff.1 hy).1
  rw [hE i hi j hj]
  constructor
  · intro hyG
    rw [flow_block h hn ht scale reverse hG hk hm ((places_of hx).2 hxG) ((places_of hy).2 hyG)]
    have hij : i = j ↔ x = y := by
      constructor
      · rintro rfl
        exact Option.some.inj (hx.symm.trans hy)
      · rintro rfl
        exact (List.getElem?_inj hi (nodup_of hn)).1 (hx.trans hy.symm)
    unfold mixed
    simp only [hij]
  · exact fun hyG => flow_out h hn ht scale reverse hG hk hm ((places_of hx).2 hxG) hj fun hh => hyG ((places_of hy).1 hh)

theorem unmixed_nonneg {evs : List (Event L ℝ)} (h : GoodContacts evs) {times : List ℝ} (ht : TimesOf evs times) (D : Set ℝ) (k : Nat)
    (scale : ℝ) (reverse : Bool) : 0 ≤ unmixedShare times D k scale reverse := by
  unfold unmixedShare
  refine div_nonneg (sum_nonneg fun m hm => mul_nonneg ?_ (Real.exp_pos _).le) (span_pos h ht).le
  have := mem_range.1 hm
  exact sub_nonneg.2 (times_lt ht.1 (Nat.lt_succ_self m) (by omega)).le

theorem search_parts {evs : List (Event L ℝ)} {nodes : List L} {times : List ℝ} {q : ℝ} {rev : Bool} {c : Clu ℝ}
    (hm : mkClu nodes.length (walkOver evs nodes times q rev) (flowCov evs nodes times q rev) .none = .ok c) :
    c.n = nodes.length ∧ c.T = walkOver evs nodes times q rev ∧ c.S = flowCov evs nodes times q rev ∧ FreshDefault c := by
  have hcc : c.n = nodes.length ∧ c.T = walkOver evs nodes times q rev ∧ c.S = flowCov evs nodes times q rev := by
    unfold mkClu at hm
    split at hm
    · split at hm
      · cases hm
      · cases hm
        exact ⟨rfl, rfl, rfl⟩
    · cases hm
  refine ⟨hcc.1, hcc.2.1, hcc.2.2, ?_⟩
  unfold FreshDefault
  rw [hcc.1, hcc.2.1, hcc.2.2]
  exact hm

theorem not_negligible {n : Nat} {S : Mat ℝ} {i j : Nat} (hi : i < n) (hj : j < n) (h : S i j = -(1 / (n : ℝ) ^ 2)) : ¬ sIsZero n S := by
  intro hz
  have hz' := hz i hi j hj
  have hn : (0 : ℝ) < n := by exact_mod_cast (by omega : 0 < n)
  rw [h, abs_neg, abs_of_pos (by positivity)] at hz'
  have := (div_lt_div_iff_of_pos_right (by positivity : (0 : ℝ) < (n : ℝ) ^ 2)).1 hz'
  norm_num at this

/-- **C151**, communities.  Let everybody belong to a group whose members meet, all with all, and nobody else.  If for each group,
of `k` labels, the covariance `(1 - s) / (k n) - 1 / n ^ 2` of two members is above half of the threshold of the search, the communities
that an analysis holds are exactly the groups, forward and backward in time, for all random choices. -/
theorem C151_groups (sf : Nat → Bool) (sc0 : Sched) (par0 : Params ℝ) {w : FWorld (NetObj L) FlowObj} {scales : List Rat}
    (h : Prepared w (scales.map some) none none) (hc : 0 ≤ w.current) {evs : List (Event L ℝ)} (hG : GoodContacts evs)
    (hne : scales ≠ []) (hpos : ∀ q ∈ scales, 0 < q) (kw : Kw L) (hkw : ∀ e, kw ≠ .network e) {nodes : List L} {times : List ℝ}
    (hn : NodesOf evs nodes) (ht : TimesOf evs times) (rev : Bool) {q : Rat} (hq : q ∈ scales)
    (hthr : 0 ≤ (used sc0 par0 kw).2.thr) (h1 : (used sc0 par0 kw).2.thr < 1) (hsub : 2 ≤ (used sc0 par0 kw).2.nSub)
    (hmeta : nodes.length ≤ (used sc0 par0 kw).2.nMeta) {Gs : List (Finset L × Set ℝ)} (hA : AllMeet evs nodes Gs)
    (hmix : ∀ G ∈ Gs, (used sc0 par0 kw).2.thr <
      2 * ((1 - unmixedShare times G.2 G.1.card q rev) / (G.1.card * nodes.length) - 1 / (nodes.length : ℝ) ^ 2)) :
    ∃ p, Holds (runF (ext sf sc0 par0) w (steps evs kw)) rev q p ∧
      ∀ (i j : Nat) (x y : L), nodes[i]? = some x → nodes[j]? = some y →
        (Together p.clusters i j ↔ ∃ G ∈ Gs, x ∈ G.1 ∧ y ∈ G.1) := by
  obtain ⟨p, hp, c, k, hm, hl⟩ := C81_search sf sc0 par0 h hc hG hne hpos kw hkw hn ht rev hq
  refine ⟨p, hp, fun i j x y hx hy => ?_⟩
  obtain ⟨c1, c2, c3, hfresh⟩ := search_parts hm
  have hq0 : (0 : ℝ) < q := by exact_mod_cast hpos q hq
  have hst := Optimum.walkOver_stoch hG hq0 rev
  rw [← nodes_unique hn, ← times_unique ht] at hst
  have hn2 := Scales.nodes_two hG hn
  have hnr : (0 : ℝ) < nodes.length := by exact_mod_cast (by omega : 0 < nodes.length)
  have hcov := Noise.TimesOf.covers ht
  have hW := walk_exists (rate := 1 / (q : ℝ)) (covers_grid hcov nodes) rev
  have hclosed : ∀ G ∈ Gs, Closed nodes.length (walkOver evs nodes times q rev) fun i => i ∈ places nodes G.1 := by
    intro G hGs
    refine closed_congr (walkOver_eq ht le_rfl le_rfl hW) ?_
    have := fun k hk => (walk_at hn (hA.members G hGs) (hA.sizes G hGs) (hA.meets G hGs) hcov hW (k := k) hk).2
    cases rev
    · exact this _ le_rfl
    · exact this _ (Nat.zero_le _)
  have hchain : ∀ G ∈ Gs, ∀ i j, Scales.Chain nodes.length (walkOver evs nodes times q rev) i j →
      (i ∈ places nodes G.1 ↔ j ∈ places nodes G.1) := by
    intro G hGs i j hch
    induction hch with
    | refl => rfl
    | tail _ hs ih =>
      obtain ⟨a1, a2, a3⟩ := hs
      refine ih.trans ?_
      rcases a3 with a3 | a3
      · exact iff_of_eq (hclosed G hGs _ a1 _ a2 a3.ne')
      · exact (iff_of_eq (hclosed G hGs _ a2 _ a1 a3.ne')).symm
  have hpair : ∀ G ∈ Gs, ∀ i j, i ∈ places nodes G.1 → j ∈ places nodes G.1 → i ≠ j →
      flowCov evs nodes times q rev i j =
        (1 - unmixedShare times G.2 G.1.card q rev) / (G.1.card * nodes.length) - 1 / (nodes.length : ℝ) ^ 2 := by
    intro G hGs i j hi hj hij
    rw [flow_block hG hn ht q rev (hA.members G hGs) (hA.sizes G hGs) (hA.meets G hGs) hi hj]
    unfold mixed
    rw [if_neg hij, mul_zero, zero_add, div_div]
  have hi := (List.getElem?_eq_some_iff.1 hx).1
  have hj := (List.getElem?_eq_some_iff.1 hy).1
  have hzero : ¬ sIsZero c.n c.S := by
    rw [c1, c3]
    obtain ⟨G, hGs, hxG⟩ := hA.all x (List.mem_of_getElem? hx)
    have hmx := hthr.trans_lt (hmix G hGs)
    have hk2 : (2 : ℝ) ≤ G.1.card := by exact_mod_cast hA.sizes G hGs
    have hu := unmixed_nonneg hG ht G.2 G.1.card q rev
    have hlt : (G.1.card : ℝ) < nodes.length := by
      by_contra hle
      push Not at hle
      have h2 : (1 - unmixedShare times G.2 G.1.card q rev) / (G.1.card * nodes.length) ≤ 1 / (nodes.length : ℝ) ^ 2 := by
        rw [div_le_div_iff₀ (by positivity) (by positivity)]
        nlinarith [mul_nonneg hu hnr.le, mul_nonneg hu (sq_nonneg (nodes.length : ℝ)), mul_le_mul_of_nonneg_right hle hnr.le]
      linarith
    have hlt' : (places nodes G.1).card < (range nodes.length).card := by
      rw [card_places hn (hA.members G hGs), card_range]
      exact_mod_cast hlt
    obtain ⟨a, ha, hna⟩ := Finset.exists_mem_notMem_of_card_lt_card hlt'
    exact not_negligible hi (mem_range.1 ha) (flow_out hG hn ht q rev (hA.members G hGs) (hA.sizes G hGs) (hA.meets G hGs)
      ((places_of hx).2 hxG) (mem_range.1 ha) hna)
  have key := Scales.C135_search (used sc0 par0 kw).1 (used sc0 par0 kw).2 hthr h1 hsub c (by rw [c1]; exact hmeta) hfresh hzero
    (by rw [c1, c2]; exact fun i hi => (hst i hi).1) ?_ k p hl i j (by rw [c1]; exact hi) (by rw [c1]; exact hj)
  · rw [key, c1, c2]
    constructor
    · intro hch
      obtain ⟨G, hGs, hxG⟩ := hA.all x (List.mem_of_getElem? hx)
      exact ⟨G, hGs, hxG, (places_of hy).1 ((hchain G hGs i j hch).1 ((places_of hx).2 hxG))⟩
    · rintro ⟨G, hGs, hxG, hyG⟩
      by_cases hij : i = j
      · rw [hij]
        exact .refl
      · have hmore := (flowCov_more ht.1 (times_len hG ht) hq0 rev hi hj).1 (by
          rw [hpair G hGs i j ((places_of hx).2 hxG) ((places_of hy).2 hyG) hij]
          have := hthr.trans_lt (hmix G hGs)
          have : 0 < 1 / (nodes.length : ℝ) ^ 2 := by positivity
          linarith)
        obtain ⟨a, ha, a1, a2⟩ := hmore
        exact .tail (.single ⟨hi, ha, .inl a1⟩) ⟨ha, hj, .inr a2⟩
  · rw [c1, c2, c3]
    intro i hi j hj hij hch
    obtain ⟨G, hGs, hxG⟩ := hA.all _ (List.getElem_mem hi)
    have hi' := (mem_places hi).2 hxG
    have hj' := (hchain G hGs i j hch).1 hi'
    rw [hpair G hGs i j hi' hj' hij, hpair G hGs j i hj' hi' (Ne.symm hij)]
    linarith [hmix G hGs]

/-- **C151**, no communities.  Under the same conditions, if the covariance `(1 - s) / (k n) - 1 / n ^ 2` is negative for all groups,
and there are two labels that have no group in common, everybody is alone. -/
theorem C151_alone (sf : Nat → Bool) (sc0 : Sched) (par0 : Params ℝ) {w : FWorld (NetObj L) FlowObj} {scales : List Rat}
    (h : Prepared w (scales.map some) none none) (hc : 0 ≤ w.current) {evs : List (Event L ℝ)} (hG : GoodContacts evs)
    (hne : scales ≠ []) (hpos : ∀ q ∈ scales, 0 < q) (kw : Kw L) (hkw : ∀ e, kw ≠ .network e) {nodes : List L} {times : List ℝ}
    (hn : NodesOf evs nodes) (ht : TimesOf evs times) (rev : Bool) {q : Rat} (hq : q ∈ scales) {Gs : List (Finset L × Set ℝ)}
    (hA : AllMeet evs nodes Gs)
    (hmix : ∀ G ∈ Gs, (1 - unmixedShare times G.2 G.1.card q rev) / (G.1.card * nodes.length) < 1 / (nodes.length : ℝ) ^ 2)
    (htwo : ∃ x ∈ nodes, ∃ y ∈ nodes, ∀ G ∈ Gs, x ∈ G.1 → y ∉ G.1) :
    ∃ p, Holds (runF (ext sf sc0 par0) w (steps evs kw)) rev q p ∧
      (∀ i < nodes.length, {i} ∈ p.clusters) ∧ ∀ cl ∈ p.clusters, cl.card = 1 := by
  obtain ⟨p, hp, c, k, hm, hl⟩ := C81_search sf sc0 par0 h hc hG hne hpos kw hkw hn ht rev hq
  refine ⟨p, hp, ?_⟩
  obtain ⟨c1, c2, c3, hfresh⟩ := search_parts hm
  have hn2 := Scales.nodes_two hG hn
  have hnr : (0 : ℝ) < nodes.length := by exact_mod_cast (by omega : 0 < nodes.length)
  have hzero : ¬ sIsZero c.n c.S := by
    rw [c1, c3]
    obtain ⟨x, hx, y, hy, hxy⟩ := htwo
    obtain ⟨i, hi⟩ := List.mem_iff_getElem?.1 hx
    obtain ⟨j, hj⟩ := List.mem_iff_getElem?.1 hy
    obtain ⟨G, hGs, hxG⟩ := hA.all x hx
    have hjn := (List.getElem?_eq_some_iff.1 hj).1
    exact not_negligible (List.getElem?_eq_some_iff.1 hi).1 hjn (flow_out hG hn ht q rev (hA.members G hGs) (hA.sizes G hGs)
      (hA.meets G hGs) ((places_of hi).2 hxG) hjn fun hh => hxy G hGs hxG ((places_of hj).1 hh))
  have key := Scales.C134_search (used sc0 par0 kw).1 (used sc0 par0 kw).2 c hfresh hzero ?_ k p hl
  · rwa [c1] at key
  · rw [c1, c3]
    intro i hi j hj hij
    obtain ⟨G, hGs, hxG⟩ := hA.all _ (List.getElem_mem hi)
    have hi' := (mem_places hi).2 hxG
    by_cases hj' : j ∈ places nodes G.1
    · rw [flow_block hG hn ht q rev (hA.members G hGs) (hA.sizes G hGs) (hA.meets G hGs) hi' hj']
      unfold mixed
      rw [if_neg hij, mul_zero, zero_add, div_div]
      linarith [hmix G hGs]
    · rw [flow_out hG hn ht q rev (hA.members G hGs) (hA.sizes G hGs) (hA.meets G hGs) hi' hj hj']
      have : 0 < 1 / (nodes.length : ℝ) ^ 2 := by positivity
      linarith

/-! ## Example: a pair and a group of three, from 0 to 10 -/

/-- Labels 0 and 1, and labels 2, 3 and 4. -/
def tables : List (Event Nat ℝ) := [⟨0, 1, 0, 10⟩, ⟨2, 3, 0, 10⟩, ⟨3, 4, 0, 10⟩, ⟨4, 2, 0, 10⟩]

/-- The two groups. -/
def seats : List (Finset Nat × Set ℝ) := [({0, 1}, Set.Ico 0 10), ({2, 3, 4}, Set.Ico 0 10)]

example : GoodContacts tables := by
  refine ⟨by simp [tables], ?_, ?_, ?_⟩
  · intro e he
    simp only [tables, List.mem_cons, List.not_mem_nil, or_false] at he
    rcases he with rfl | rfl | rfl | rfl <;> norm_num
  · intro e he
    simp only [tables, List.mem_cons, List.not_mem_nil, or_false] at he
    rcases he with rfl | rfl | rfl | rfl <;> norm_num
  · simp [tables]

example : NodesOf tables [0, 1, 2, 3, 4] ∧ TimesOf tables [0, 10] := by
  refine ⟨⟨by decide, fun l => ?_⟩, by simp, fun t => ?_⟩
  · simp only [tables, List.mem_cons, List.not_mem_nil, or_false, exists_eq_or_imp, exists_eq_left]
    omega
  · simp only [tables, List.mem_cons, List.not_mem_nil, or_false, exists_eq_or_imp, exists_eq_left]
    tauto

example : AllMeet tables [0, 1, 2, 3, 4] seats := by
  refine ⟨?_, ?_, ?_, ?_⟩
  · simp [seats]
  · simp [seats]
  · intro G hG x hx u z
    simp only [seats, List.mem_cons, List.not_mem_nil, or_false] at hG
    rcases hG with rfl | rfl <;> simp only [Finset.mem_insert, Finset.mem_singleton] at hx <;>
      simp only [Touch, tables, List.mem_cons, List.not_mem_nil, or_false, exists_eq_or_imp, exists_eq_left, Finset.mem_insert,
        Finset.mem_singleton, Set.mem_Ico]
    · by_cases c1 : (0 : ℝ) ≤ u <;> by_cases c2 : u < (10 : ℝ) <;> rcases hx with rfl | rfl <;> simp [c1, c2] <;> omega
    · by_cases c1 : (0 : ℝ) ≤ u <;> by_cases c2 : u < (10 : ℝ) <;> rcases hx with rfl | rfl | rfl <;> simp [c1, c2] <;> omega
  · simp [seats]

theorem tables_share (k : Nat) (scale : ℝ) (rev : Bool) :
    unmixedShare [0, 10] (Set.Ico 0 10) k scale rev = Real.exp (-(2 * ((k : ℝ) / (k - 1)) * (10 / scale))) := by
  have hd : duration (Set.Ico (0 : ℝ) 10) = 10 := by
    unfold duration
    rw [Real.volume_Ico, ENNReal.toReal_ofReal] <;> norm_num
  unfold unmixedShare during
  cases rev <;> simp [hd]

theorem exp_bounds {x : ℝ} (hx : 0 < x) : Real.exp (-x) ≤ 1 / (x + 1) ∧ 1 - x ≤ Real.exp (-x) := by
  constructor
  · rw [Real.exp_neg, inv_eq_one_div]
    exact one_div_le_one_div_of_le (by linarith) (Real.add_one_le_exp x)
  · linarith [Real.add_one_le_exp (-x)]

/-- With the waiting time 1 both groups are above a threshold of 1/50. -/
example (rev : Bool) : ∀ G ∈ seats, (1 / 50 : ℝ) < 2 * ((1 - unmixedShare [0, 10] G.2 G.1.card 1 rev) / (G.1.card * 5) - 1 / 5 ^ 2) := by
  intro G hG
  simp only [seats, List.mem_cons, List.not_mem_nil, or_false] at hG
  rcases hG with rfl | rfl
  · have hk : ({0, 1} : Finset Nat).card = 2 := rfl
    simp only [hk, tables_share]
    have := (exp_bounds (show (0 : ℝ) < 40 by norm_num)).1
    norm_num at this ⊢
    linarith
  · have hk : ({2, 3, 4} : Finset Nat).card = 3 := rfl
    simp only [hk, tables_share]
    have := (exp_bounds (show (0 : ℝ) < 30 by norm_num)).1
    norm_num at this ⊢
    linarith

/-- With the waiting time 1000 both groups are below. -/
example (rev : Bool) : ∀ G ∈ seats, (1 - unmixedShare [0, 10] G.2 G.1.card 1000 rev) / (G.1.card * 5) < (1 : ℝ) / 5 ^ 2 := by
  intro G hG
  simp only [seats, List.mem_cons, List.not_mem_nil, or_false] at hG
  rcases hG with rfl | rfl
  · have hk : ({0, 1} : Finset Nat).card = 2 := rfl
    simp only [hk, tables_share]
    have := (exp_bounds (show (0 : ℝ) < 1 / 25 by norm_num)).2
    norm_num at this ⊢
    linarith
  · have hk : ({2, 3, 4} : Finset Nat).card = 3 := rfl
    simp only [hk, tables_share]
    have := (exp_bounds (show (0 : ℝ) < 3 / 100 by norm_num)).2
    norm_num at this ⊢
    linarith

end Verif.Parties
