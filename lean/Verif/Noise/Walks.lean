import Verif.Noise.Norms

/-! # Walks on two tables of contacts -/

set_option linter.dupNamespace false
set_option linter.unusedSectionVars false

namespace Verif.Noise

open Verif.TempNet Verif.Trans Verif.Flow Verif.EndToEnd Verif.Decay Verif.Autocov Verif.Average Finset MeasureTheory

variable {L : Type} [LinearOrder L]

/-! ## A common grid -/

/-- `ts` is sorted and has all times of the contacts. -/
def Covers (evs : List (Event L ℝ)) (ts : List ℝ) : Prop :=
  ts.Pairwise (· < ·) ∧ ∀ e ∈ evs, e.start ∈ ts ∧ e.stop ∈ ts

theorem TimesOf.covers {evs : List (Event L ℝ)} {times : List ℝ} (h : TimesOf evs times) : Covers evs times :=
  ⟨h.1, fun e he => ⟨(h.2 _).2 ⟨e, he, .inl rfl⟩, (h.2 _).2 ⟨e, he, .inr rfl⟩⟩⟩

theorem exists_times (evs : List (Event L ℝ)) : ∃ ts, TimesOf evs ts := by
  classical
  let F : Finset ℝ := (evs.flatMap fun e => [e.start, e.stop]).toFinset
  refine ⟨F.sort (· ≤ ·), F.sortedLT_sort.pairwise, fun t => ?_⟩
  rw [Finset.mem_sort]
  simp [F]

theorem between {ts : List ℝ} (ht : ts.Pairwise (· < ·)) {k : ℕ} (hk : k < ts.length - 1) {t u : ℝ} (htm : t ∈ ts)
    (h1 : at' ts k ≤ u) (h2 : u < at' ts (k + 1)) : t ≤ u ↔ t ≤ at' ts k := by
  refine ⟨fun h => ?_, fun h => h.trans h1⟩
  obtain ⟨i, hi, rfl⟩ := times_mem htm
  rcases Nat.lt_or_ge k i with hki | hki
  · exfalso
    have : at' ts (k + 1) ≤ at' ts i := by
      rcases Nat.eq_or_lt_of_le (show k + 1 ≤ i from hki) with rfl | h'
      · exact le_rfl
      · exact (times_lt ht h' hi).le
    exact absurd (this.trans h) (not_le.2 h2)
  · rcases Nat.eq_or_lt_of_le hki with rfl | h'
    · exact le_rfl
    · exact (times_lt ht h' (by omega)).le

theorem contact_const {evs : List (Event L ℝ)} {ts : List ℝ} (ht : Covers evs ts) (nodes : List L) {k : ℕ}
    (hk : k < ts.length - 1) {u : ℝ} (h1 : at' ts k ≤ u) (h2 : u < at' ts (k + 1)) (a b : Nat) :
    InContact evs nodes u a b ↔ InContact evs nodes (at' ts k) a b := by
  unfold InContact
  refine exists_congr fun e => and_congr_right fun he => ?_
  rw [between ht.1 hk (ht.2 e he).1 h1 h2]
  refine and_congr_right fun _ => and_congr_left fun _ => ?_
  have := between ht.1 hk (ht.2 e he).2 h1 h2
  rw [← not_le, ← not_le, this]

/-- Generator of the walk. -/
noncomputable def gen (evs : List (Event L ℝ)) (nodes : List L) (u : ℝ) : Mat ℝ :=
  walkLaplacian nodes.length (InContact evs nodes u)

theorem covers_grid {evs : List (Event L ℝ)} {ts : List ℝ} (ht : Covers evs ts) (nodes : List L) :
    Grid nodes.length (gen evs nodes) (at' ts) (ts.length - 1) := by
  constructor
  · intro k hk
    exact (times_lt ht.1 (Nat.lt_succ_self k) (by omega)).le
  · intro k hk u h1 h2 i _ j _
    show walkLaplacian _ _ i j = walkLaplacian _ _ i j
    rw [walkLaplacian_congr (contact_const ht nodes hk h1 h2)]

theorem ge_first {ts : List ℝ} (ht : ts.Pairwise (· < ·)) {t : ℝ} (h : t ∈ ts) : at' ts 0 ≤ t := by
  obtain ⟨i, hi, rfl⟩ := times_mem h
  rcases Nat.eq_zero_or_pos i with rfl | h0
  · exact le_rfl
  · exact (times_lt ht h0 hi).le

theorem le_last {ts : List ℝ} (ht : ts.Pairwise (· < ·)) {t : ℝ} (h : t ∈ ts) : t ≤ at' ts (ts.length - 1) := by
  obtain ⟨i, hi, rfl⟩ := times_mem h
  rcases Nat.lt_or_ge i (ts.length - 1) with h0 | h0
  · exact (times_lt ht h0 (by omega)).le
  · rw [show ts.length - 1 = i from by omega]

theorem contact_inside {evs : List (Event L ℝ)} {ts : List ℝ} (ht : Covers evs ts) {nodes : List L} {u : ℝ} {i j : Nat}
    (h : InContact evs nodes u i j) : at' ts 0 ≤ u ∧ u < at' ts (ts.length - 1) := by
  obtain ⟨e, he, h1, h2, -⟩ := h
  exact ⟨(ge_first ht.1 (ht.2 e he).1).trans h1, h2.trans_le (le_last ht.1 (ht.2 e he).2)⟩

/-- Nothing moves before the first and after the last time. -/
theorem gen_outside {evs : List (Event L ℝ)} {ts : List ℝ} (ht : Covers evs ts) {nodes : List L} {u : ℝ}
    (h : u < at' ts 0 ∨ at' ts (ts.length - 1) ≤ u) : EqOn nodes.length (gen evs nodes u) fun _ _ => 0 := by
  have hno : ∀ a b, ¬InContact evs nodes u a b := fun a b hc => by
    have := contact_inside ht hc
    rcases h with h | h
    · exact absurd this.1 (not_le.2 h)
    · exact absurd this.2 (not_lt.2 h)
  intro i _ j _
  classical
  have hd : degree nodes.length (InContact evs nodes u) i = 0 := by
    unfold degree
    rw [Finset.card_eq_zero, Finset.filter_eq_empty_iff]
    exact fun b _ => hno i b
  unfold gen walkLaplacian
  rw [if_pos hd, sub_self]

/-! ## The transition over the whole time -/

theorem idle {evs : List (Event L ℝ)} {times : List ℝ} (ht : Covers evs times) {nodes : List L} {rate s u : ℝ} (hsu : s ≤ u)
    (h : u ≤ at' times 0 ∨ at' times (times.length - 1) ≤ s) :
    (∀ v, s ≤ v → v < u → EqOn nodes.length (gen evs nodes v) (gen evs nodes s)) ∧
    EqOn nodes.length (expm nodes.length fun i j => -((u - s) * rate) * gen evs nodes s i j) eye := by
  rcases hsu.eq_or_lt with rfl | hlt
  · exact ⟨fun v h1 h2 => absurd h2 (not_lt.2 h1), expm_zero fun i _ j _ => by simp⟩
  · have hz : ∀ v, s ≤ v → v < u → EqOn nodes.length (gen evs nodes v) fun _ _ => 0 := by
      intro v h1 h2
      refine gen_outside ht ?_
      rcases h with h | h
      · exact .inl (h2.trans_le h)
      · exact .inr (h.trans h1)
    refine ⟨fun v h1 h2 => (hz v h1 h2).trans (hz s le_rfl hlt).symm, expm_zero fun i hi j hj => ?_⟩
    show _ * gen evs nodes s i j = 0
    rw [hz s le_rfl hlt i hi j hj, mul_zero]

/-- A walk over a longer time is one over the time of the contacts: before and after it nothing
moves. -/
theorem walk_restrict {evs : List (Event L ℝ)} {nodes : List L} {times : List ℝ} (hc : Covers evs times) {rate a b : ℝ}
    {reverse : Bool} {P : ℝ → Mat ℝ} (ha : a ≤ at' times 0) (hb : at' times (times.length - 1) ≤ b)
    (hP : Walk nodes.length rate (gen evs nodes) a b reverse P) :
    Walk nodes.length rate (gen evs nodes) (at' times 0) (at' times (times.length - 1)) reverse P := by
  have hmid : at' times 0 ≤ at' times (times.length - 1) := grid_mono (covers_grid hc nodes).mono (Nat.zero_le _) le_rfl
  have hfirst := idle hc (nodes := nodes) (rate := rate) ha (.inl le_rfl)
  have hlast := idle hc (nodes := nodes) (rate := rate) hb (.inr le_rfl)
  refine ⟨?_, fun s u h1 h2 h3 hg => hP.moves s u (ha.trans h1) h2 (h3.trans hb) hg⟩
  have hs := hP.start
  cases reverse
  · have m1 := hP.moves a _ le_rfl ha (hmid.trans hb) hfirst.1
    simp only [Bool.false_eq_true, if_false] at m1 hs ⊢
    exact m1.trans ((mul_congr hs hfirst.2).trans (mul_eye _))
  · have m2 := hP.moves _ b (ha.trans hmid) hb le_rfl hlast.1
    simp only [if_true] at m2 hs ⊢
    exact m2.trans ((mul_congr hs hlast.2).trans (mul_eye _))

theorem walkOver_eq {evs : List (Event L ℝ)} {nodes : List L} {times : List ℝ} (ht : TimesOf evs times) {scale a b : ℝ}
    {reverse : Bool} {P : ℝ → Mat ℝ} (ha : a ≤ at' times 0) (hb : at' times (times.length - 1) ≤ b)
    (hP : Walk nodes.length (1 / scale) (gen evs nodes) a b reverse P) :
    EqOn nodes.length (walkOver evs nodes times scale reverse) (P (if reverse then a else b)) := by
  have hc := TimesOf.covers ht
  have hW := walk_restrict hc ha hb hP
  have hG := covers_grid hc nodes
  have hmid : at' times 0 ≤ at' times (times.length - 1) := grid_mono hG.mono (Nat.zero_le _) le_rfl
  set t0 := at' times 0 with ht0
  set tl := at' times (times.length - 1) with htl
  have hfirst := idle hc (nodes := nodes) (rate := 1 / scale) ha (.inl le_rfl)
  have hlast := idle hc (nodes := nodes) (rate := 1 / scale) hb (.inr le_rfl)
  set N := times.length - 1 with hN
  set Ms := (List.range N).map (walkStep evs nodes times scale) with hMs
  have hl : Ms.length = N := by simp [hMs]
  have hM : ∀ k (hk : k < Ms.length), EqOn nodes.length Ms[k] (move nodes.length (1 / scale)
      (gen evs nodes) (at' times k) (at' times (k + 1))) := by
    intro k hk
    simp only [hMs, List.getElem_map, List.getElem_range]
    exact EqOn.refl _ _
  cases reverse
  · have m2 := hP.moves tl b (ha.trans hmid) hb le_rfl hlast.1
    simp only [Bool.false_eq_true, if_false] at m2 ⊢
    have h := grid_fwd hG hW hl hM N le_rfl
    have e : walkOver evs nodes times scale false = prod nodes.length (Ms.take N) := by
      rw [List.take_of_length_le hl.le]
      simp [walkOver, hMs, hN]
    rw [e]
    exact h.trans (m2.trans ((mul_congr (EqOn.refl _ _) hlast.2).trans (mul_eye _))).symm
  · have m1 := hP.moves a t0 le_rfl ha (hmid.trans hb) hfirst.1
    simp only [if_true] at m1 ⊢
    have h := grid_bwd hG hW hl hM N le_rfl
    rw [Nat.sub_self] at h
    have e : walkOver evs nodes times scale true = prod nodes.length (Ms.reverse.take N) := by
      rw [List.take_of_length_le (by simp [hl])]
      simp [walkOver, hMs, hN]
    rw [e]
    exact h.trans (m1.trans ((mul_congr (EqOn.refl _ _) hfirst.2).trans (mul_eye _))).symm

/-! ## How far the walks get apart -/

/-- How long the contacts differ between two times. -/
noncomputable def gap (D : Set ℝ) (s u : ℝ) : ℝ := (volume (D ∩ Set.Ico s u)).toReal

theorem gap_finite (D : Set ℝ) (s u : ℝ) : volume (D ∩ Set.Ico s u) ≠ ⊤ :=
  ne_top_of_le_ne_top (by rw [Real.volume_Ico]; exact ENNReal.ofReal_ne_top) (measure_mono Set.inter_subset_right)

theorem gap_nonneg (D : Set ℝ) (s u : ℝ) : 0 ≤ gap D s u := ENNReal.toReal_nonneg

theorem gap_self (D : Set ℝ) (s : ℝ) : gap D s s = 0 := by simp [gap]

theorem gap_add (D : Set ℝ) {s y u : ℝ} (h1 : s ≤ y) (h2 : y ≤ u) : gap D s y + gap D y u = gap D s u := by
  unfold gap
  rw [← ENNReal.toReal_add (gap_finite _ _ _) (gap_finite _ _ _)]
  congr 1
  rw [← measure_inter_add_diff (D ∩ Set.Ico s u) (measurableSet_Iio (a := y))]
  congr 2
  · ext v
    simp only [Set.mem_inter_iff, Set.mem_Ico, Set.mem_Iio]
    constructor
    · rintro ⟨a, b, c⟩; exact ⟨⟨a, b, c.trans_le h2⟩, c⟩
    · rintro ⟨⟨a, b, c⟩, d⟩; exact ⟨a, b, d⟩
  · ext v
    simp only [Set.mem_inter_iff, Set.mem_Ico, Set.mem_diff, Set.mem_Iio, not_lt]
    constructor
    · rintro ⟨a, b, c⟩; exact ⟨⟨a, h1.trans b, c⟩, b⟩
    · rintro ⟨⟨a, b, c⟩, d⟩; exact ⟨a, d, c⟩

theorem gap_full {D : Set ℝ} {s u : ℝ} (hsu : s ≤ u) (h : Set.Ico s u ⊆ D) : gap D s u = u - s := by
  unfold gap
  rw [Set.inter_eq_right.2 h, Real.volume_Ico, ENNReal.toReal_ofReal (sub_nonneg.2 hsu)]

variable {evs evs' : List (Event L ℝ)} {nodes : List L} {ts : List ℝ}

/-- One step within an interval of the common grid. -/
theorem step_close (hc : Covers evs ts) (hc' : Covers evs' ts) {rate : ℝ} (hr : 0 ≤ rate) {k : ℕ} (hk : k < ts.length - 1)
    {s u : ℝ} (h1 : at' ts k ≤ s) (h2 : s ≤ u) (h3 : u ≤ at' ts (k + 1)) {i : Nat} (hi : i < nodes.length) :
    rowDist nodes.length (expm nodes.length fun a b => -((u - s) * rate) * gen evs nodes s a b)
      (expm nodes.length fun a b => -((u - s) * rate) * gen evs' nodes s a b) i ≤ 2 * rate * gap (apart evs evs' nodes) s u := by
  have ht : 0 ≤ (u - s) * rate := mul_nonneg (sub_nonneg.2 h2) hr
  by_cases hD : s ∈ apart evs evs' nodes
  · have hsub : Set.Ico s u ⊆ apart evs evs' nodes := by
      rintro v ⟨v1, v2⟩
      obtain ⟨a, b, hab⟩ := hD
      refine ⟨a, b, fun hh => hab ?_⟩
      have hs : s < at' ts (k + 1) := (v1.trans_lt v2).trans_le h3
      rw [contact_const hc nodes hk h1 hs, contact_const hc' nodes hk h1 hs,
        ← contact_const hc nodes hk (h1.trans v1) (v2.trans_le h3), ← contact_const hc' nodes hk (h1.trans v1) (v2.trans_le h3)]
      exact hh
    rw [gap_full h2 hsub]
    have := expm_close (walkLaplacian_lap nodes.length (InContact evs nodes s))
      (walkLaplacian_lap nodes.length (InContact evs' nodes s)) ht (c := 2) (by norm_num)
      (fun i hi => walkLaplacian_close _ _ hi) hi
    refine le_trans this (le_of_eq ?_)
    ring
  · have hsame : ∀ a b, InContact evs nodes s a b ↔ InContact evs' nodes s a b := by
      intro a b
      by_contra hab
      exact hD ⟨a, b, hab⟩
    have : gen evs nodes s = gen evs' nodes s := by
      unfold gen
      rw [walkLaplacian_congr hsame]
    rw [this, rowDist_eq (EqOn.refl _ _) hi]
    exact mul_nonneg (mul_nonneg (by norm_num) hr) (gap_nonneg _ _ _)

theorem apart_inside (hc : Covers evs ts) (hc' : Covers evs' ts) :
    apart evs evs' nodes ⊆ Set.Ico (at' ts 0) (at' ts (ts.length - 1)) := by
  rintro u ⟨i, j, h⟩
  by_cases h1 : InContact evs nodes u i j
  · exact contact_inside hc h1
  · by_cases h2 : InContact evs' nodes u i j
    · exact contact_inside hc' h2
    · exact absurd ⟨fun h => absurd h h1, fun h => absurd h h2⟩ h

theorem gap_whole (hc : Covers evs ts) (hc' : Covers evs' ts) :
    gap (apart evs evs' nodes) (at' ts 0) (at' ts (ts.length - 1)) = timeApart evs evs' nodes := by
  unfold gap timeApart
  rw [Set.inter_eq_left.2 (apart_inside hc hc')]

/-- The walks over the common grid. -/
theorem walks_close (hc : Covers evs ts) (hc' : Covers evs' ts) {rate : ℝ} (hr : 0 ≤ rate) {reverse : Bool} {P P' : ℝ → Mat ℝ}
    (hP : Walk nodes.length rate (gen evs nodes) (at' ts 0) (at' ts (ts.length - 1)) reverse P)
    (hP' : Walk nodes.length rate (gen evs' nodes) (at' ts 0) (at' ts (ts.length - 1)) reverse P')
    {s u : ℝ} (h1 : at' ts 0 ≤ s) (h2 : s ≤ u) (h3 : u ≤ at' ts (ts.length - 1)) {i : Nat} (hi : i < nodes.length) :
    rowDist nodes.length (P (if reverse then s else u)) (P' (if reverse then s else u)) i ≤
      rowDist nodes.length (P (if reverse then u else s)) (P' (if reverse then u else s)) i +
        2 * rate * gap (apart evs evs' nodes) s u := by
  have hG := covers_grid hc nodes
  have hG' := covers_grid hc' nodes
  have hlap : ∀ u, Lap nodes.length (gen evs nodes u) := fun _ => walkLaplacian_lap _ _
  have hlap' : ∀ u, Lap nodes.length (gen evs' nodes u) := fun _ => walkLaplacian_lap _ _
  refine chain (R := fun s u => at' ts 0 ≤ s → u ≤ at' ts (ts.length - 1) → rowDist nodes.length (P (if reverse then s else u)) (P' (if reverse then s else u)) i ≤
      rowDist nodes.length (P (if reverse then u else s)) (P' (if reverse then u else s)) i +
        2 * rate * gap (apart evs evs' nodes) s u) ?_ ?_ hG.mono ?_ s u h1 h2 h3 h1 h3
  · intro s y u hsy hyu r1 r2 ha hb
    have r1 := r1 ha (hyu.trans hb)
    have r2 := r2 (ha.trans hsy) hb
    rw [← gap_add _ hsy hyu, mul_add]
    cases reverse
    · simp only [Bool.false_eq_true, if_false] at r1 r2 ⊢
      linarith
    · simp only [if_true] at r1 r2 ⊢
      linarith
  · intro s _ _
    rw [gap_self, ite_self]
    simp
  · intro k hk s u h1 h2 h3 ha hb
    have m := hP.moves s u ha h2 hb (hG.same hk h1 h3)
    have m' := hP'.moves s u ha h2 hb (hG'.same hk h1 h3)
    have hU' := move_stoch hr hlap' h2
    have hst : ∀ v, at' ts 0 ≤ v → v ≤ at' ts (ts.length - 1) → Stoch nodes.length (P v) := fun v a b =>
      walk_stoch hr hlap hG hP a b
    cases reverse
    · simp only [Bool.false_eq_true, if_false] at m m' ⊢
      rw [rowDist_congr m m' hi]
      exact rowDist_mul (hst s ha (h2.trans hb)) hU' (fun k' hk' => step_close hc hc' hr hk h1 h2 h3 hk') hi
    · simp only [if_true] at m m' ⊢
      rw [rowDist_congr m m' hi]
      exact rowDist_mul (hst u (ha.trans h2) hb) hU' (fun k' hk' => step_close hc hc' hr hk h1 h2 h3 hk') hi

theorem times_inside {times : List ℝ} (hne : evs ≠ []) (ht : TimesOf evs times) (hc : Covers evs ts) :
    at' ts 0 ≤ at' times 0 ∧ at' times (times.length - 1) ≤ at' ts (ts.length - 1) := by
  have hpos : 0 < times.length := by
    obtain ⟨e, he⟩ := List.exists_mem_of_ne_nil _ hne
    exact List.length_pos_of_mem ((ht.2 e.start).2 ⟨e, he, .inl rfl⟩)
  have hm : ∀ k < times.length, at' times k ∈ ts := by
    intro k hk
    obtain ⟨e, he, h | h⟩ := (ht.2 _).1 (mem_times hk)
    · rw [h]; exact (hc.2 e he).1
    · rw [h]; exact (hc.2 e he).2
  exact ⟨ge_first hc.1 (hm 0 hpos), le_last hc.1 (hm _ (by omega))⟩

theorem walkOver_close {times times' : List ℝ} (hne : evs ≠ []) (hne' : evs' ≠ []) (ht : TimesOf evs times) (ht' : TimesOf evs' times')
    {scale : ℝ} (hs : 0 < scale) (reverse : Bool) {i : Nat} (hi : i < nodes.length) :
    rowDist nodes.length (walkOver evs nodes times scale reverse) (walkOver evs' nodes times' scale reverse) i ≤
      2 / scale * timeApart evs evs' nodes := by
  obtain ⟨ts, hts⟩ := exists_times (evs ++ evs')
  have hcc := TimesOf.covers hts
  have hc : Covers evs ts := ⟨hcc.1, fun e he => hcc.2 e (List.mem_append_left _ he)⟩
  have hc' : Covers evs' ts := ⟨hcc.1, fun e he => hcc.2 e (List.mem_append_right _ he)⟩
  have hW := walk_exists (rate := 1 / scale) (covers_grid hc nodes) reverse
  have hW' := walk_exists (rate := 1 / scale) (covers_grid hc' nodes) reverse
  have e := walkOver_eq ht (times_inside hne ht hc).1 (times_inside hne ht hc).2 hW
  have e' := walkOver_eq ht' (times_inside hne' ht' hc').1 (times_inside hne' ht' hc').2 hW'
  rw [rowDist_congr e e' hi]
  have h0 : at' ts 0 ≤ at' ts (ts.length - 1) := grid_mono (covers_grid hc nodes).mono (Nat.zero_le _) le_rfl
  have := walks_close hc hc' (by positivity) hW hW' le_rfl h0 le_rfl hi
  rw [gap_whole hc hc', rowDist_eq (hW.start.trans hW'.start.symm) hi, zero_add] at this
  refine this.trans (le_of_eq ?_)
  ring

end Verif.Noise
