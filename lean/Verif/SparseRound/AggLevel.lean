import Verif.SparseRound.AggErrors

/-!
# The aggregated covariance is near the exact one
-/

set_option linter.unusedSectionVars false

namespace Verif.SparseRound

open Verif.Partition Verif.Csr Verif.Autocov
open Verif.Louvain (aggS blockSum blockSum_lab exists_lab at_lt_n)
open Verif.Rounding (Rounds absSum Near one_le_pow' list_sum_finset length_le)
open Verif.SparseLouvain (SErr SClu mkS sneighs)

variable {K : Type} [Field K] [LinearOrder K] [IsStrictOrderedRing K] {u B : K} {ar : SArith K}

omit [Field K] [LinearOrder K] [IsStrictOrderedRing K] in
theorem row_length_le {M : Csr K} (hM : M.WF) (hnr : M.NoRepeats) {i : Nat} (hi : i < M.nrows) :
    (M.row i).length ≤ M.ncols := by
  have h := length_le M.ncols ((M.row i).map Prod.fst).toFinset ((M.row i).map Prod.fst) (hnr i hi)
    (fun v => by simp) (by
      intro v hv
      rw [List.mem_toFinset, List.mem_map] at hv
      obtain ⟨e, he, rfl⟩ := hv
      exact hM.row_lt i e he)
  simpa using h

omit [Field K] [LinearOrder K] [IsStrictOrderedRing K] in
theorem group_length {n : Nat} {groups : List (List Nat)} (hg : IsGrouping n groups) {a : Nat}
    (ha : a < groups.length) : (groups.getD a []).length ≤ n :=
  length_le n (groups.getD a []).toFinset _ (group_nodup hg a) (fun v => by simp)
    fun v hv => group_lt hg a v ha (by simpa using hv)

omit [Field K] [LinearOrder K] [IsStrictOrderedRing K] in
theorem length_flatMap_le {ι κ : Type} (l : List ι) (f : ι → List κ) (n : Nat)
    (h : ∀ i ∈ l, (f i).length ≤ n) : (l.flatMap f).length ≤ l.length * n := by
  induction l with
  | nil => simp
  | cons i l ih =>
    rw [List.flatMap_cons, List.length_append, List.length_cons]
    have h1 := h i (by simp)
    have h2 := ih fun j hj => h j (by simp [hj])
    linarith [Nat.succ_mul l.length n]

theorem near_pos {q : Nat} {s x : K} (h : Near u q s x x) (hq : (1 + u) ^ q ≤ 3 / 2) (hx : 0 < x) :
    0 < s := by
  have h1 := (abs_le.1 h.1).1
  have h2 : ((1 + u) ^ q - 1) * x ≤ 1 / 2 * x := mul_le_mul_of_nonneg_right (by linarith) hx.le
  linarith

/-- Entries of the aggregated matrix. -/
theorem fAggregatePT_near (hr : RoundsS u B ar) (hu : 0 ≤ u) {n : Nat} {M : Csr K} (hM : M.WF)
    (hn : M.nrows = n) (hc : M.ncols = n) (hnr : M.NoRepeats)
    (hpos : ∀ i < n, ∀ e ∈ M.row i, 0 < e.2) {groups : List (List Nat)} (hg : IsGrouping n groups)
    (hs : (1 + u) ^ (n ^ 2) ≤ 3 / 2)
    (hB : ∀ a < groups.length, ∀ b < groups.length,
      (1 + u) ^ (n ^ 2) * pairSum M.val (groups.getD a []) (groups.getD b []) ≤ B)
    {a : Nat} (ha : a < groups.length) :
    (∀ e ∈ (fAggregatePT ar M groups).row a, Near u (n ^ 2) e.2
        (pairSum M.val (groups.getD a []) (groups.getD e.1 []))
        (pairSum M.val (groups.getD a []) (groups.getD e.1 []))) ∧
      (((fAggregatePT ar M groups).row a).map Prod.fst).Nodup ∧
      ∀ b < groups.length, b ∉ ((fAggregatePT ar M groups).row a).map Prod.fst →
        pairSum M.val (groups.getD a []) (groups.getD b []) = 0 := by
  have hval : ∀ i < n, ∀ j, 0 ≤ M.val i j := by
    intro i hi j
    unfold Csr.val sumAt
    apply List.sum_nonneg
    intro z hz
    obtain ⟨e, he, rfl⟩ := List.mem_map.1 hz
    exact (hpos i hi e (List.mem_filter.1 he).1).le
  have hp0 : ∀ b < groups.length, 0 ≤ pairSum M.val (groups.getD a []) (groups.getD b []) :=
    fun b _ => pairSum_nonneg _ _ _ fun i hi j _ => hval i (group_lt hg a i ha hi) j
  unfold fAggregatePT
  split
  · have hnear : ∀ b < groups.length, Near u (n ^ 2)
        (fSubmat ar M (groups.getD a []) (groups.getD b []))
        (pairSum M.val (groups.getD a []) (groups.getD b []))
        (pairSum M.val (groups.getD a []) (groups.getD b [])) := by
      intro b hb
      have hl : (groups.getD a []).length * (groups.getD b []).length ≤ n ^ 2 := by
        rw [pow_two]
        exact Nat.mul_le_mul (group_length hg ha) (group_length hg hb)
      have := fSubmat_near hr hu M (groups.getD a []) (groups.getD b [])
        (fun i hi => hnr i (by rw [hn]; exact group_lt hg a i ha hi)) (group_nodup hg b)
        (fun i hi e he => (hpos i (group_lt hg a i ha hi) e he).le)
        (le_trans (mul_le_mul_of_nonneg_right (pow_le_pow_right₀ (by linarith) hl) (hp0 b hb)) (hB a ha b hb))
      exact this.mono hu hl
    unfold fAggregate1
    rw [row_ofRows_map _ _ _ _ ha]
    refine ⟨?_, ?_, ?_⟩
    · intro e he
      obtain ⟨b, hb, hbe⟩ := List.mem_filterMap.1 he
      split at hbe
      · injection hbe with hbe
        subst hbe
        exact hnear b (List.mem_range.1 hb)
      · simp at hbe
    · have := nodup_filterMap_range groups.length
        (fun b => ar.lt ar.zero (fSubmat ar M (groups.getD a []) (groups.getD b [])))
        (fun b => fSubmat ar M (groups.getD a []) (groups.getD b []))
      exact this
    · intro b hb hnb
      by_contra hne
      have hp := lt_of_le_of_ne (hp0 b hb) (Ne.symm hne)
      have h1 := near_pos (hnear b hb) hs hp
      apply hnb
      refine List.mem_map.2 ⟨(b, fSubmat ar M (groups.getD a []) (groups.getD b [])), List.mem_filterMap.2 ⟨b, List.mem_range.2 hb, ?_⟩, rfl⟩
      rw [if_pos (by rw [hr.lt, hr.zero]; simpa using h1)]
  · unfold fAggregate2
    rw [row_ofRows_map _ _ _ _ ha]
    set r := ((List.range M.nrows).filter fun i => groupOf groups i == a).flatMap fun i =>
        (M.row i).map fun e => (groupOf groups e.1, e.2) with hrdef
    have hsum : ∀ b < groups.length,
        sumAt r b = pairSum M.val (groups.getD a []) (groups.getD b []) := by
      intro b hb
      have h1 := val_aggregate2 hM hn hc hg a b ha hb
      unfold Csr.val aggregate2 at h1
      rw [row_ofRows_map _ _ _ _ ha, sumAt_canonRow _ _ _ _ hb] at h1
      exact h1
    have hrpos : ∀ e ∈ r, 0 < e.2 := by
      intro e he
      obtain ⟨i, hi, he'⟩ := List.mem_flatMap.1 he
      obtain ⟨f, hf, rfl⟩ := List.mem_map.1 he'
      exact hpos i (by rw [← hn]; exact List.mem_range.1 (List.mem_filter.1 hi).1) f hf
    have hrlen : r.length ≤ n ^ 2 := by
      have h1 := length_flatMap_le ((List.range M.nrows).filter fun i => groupOf groups i == a)
        (fun i => (M.row i).map fun e => (groupOf groups e.1, e.2)) n (by
          intro i hi
          rw [List.length_map, ← hc]
          exact row_length_le hM hnr (List.mem_range.1 (List.mem_filter.1 hi).1))
      have h2 := List.length_filter_le (fun i => groupOf groups i == a) (List.range M.nrows)
      rw [List.length_range, hn] at h2
      have h3 := Nat.mul_le_mul_right n h2
      rw [hn] at h1
      rw [pow_two, hrdef, hn]
      omega
    refine ⟨?_, ?_, ?_⟩
    · intro e he
      obtain ⟨b, hb, hbe⟩ := List.mem_filterMap.1 he
      have hb' := List.mem_range.1 hb
      split at hbe
      · injection hbe with hbe
        subst hbe
        set l := (r.filter fun e => e.1 == b).map Prod.snd with hl
        have hl0 : ∀ x ∈ l, 0 ≤ x := by
          intro x hx
          obtain ⟨e, he, rfl⟩ := List.mem_map.1 hx
          exact (hrpos e (List.mem_filter.1 he).1).le
        have habs : absSum l = l.sum := by
          unfold absSum
          congr 1
          have h1 : (l.map fun x => |x|) = l.map id :=
            List.map_congr_left fun x hx => abs_of_nonneg (hl0 x hx)
          rw [h1, List.map_id]
        have hls : l.sum = pairSum M.val (groups.getD a []) (groups.getD b []) := hsum b hb'
        have hll : l.length ≤ n ^ 2 := by
          rw [hl, List.length_map]
          exact le_trans (List.length_filter_le _ _) hrlen
        have h1 : l.sum ≤ B := by
          have h2 := hB a ha b hb'
          have h3 := one_le_pow' hu (n ^ 2)
          have h4 := mul_le_mul_of_nonneg_right h3 (hp0 b hb')
          rw [hls]
          linarith
        have h2 := hr.dup l (by rw [habs]; exact h1)
        rw [habs, hls] at h2
        have h3 : Near u l.length (ar.dup l) (pairSum M.val (groups.getD a []) (groups.getD b []))
            (pairSum M.val (groups.getD a []) (groups.getD b [])) :=
          ⟨h2, le_of_eq (abs_of_nonneg (hp0 b hb'))⟩
        exact h3.mono hu hll
      · simp at hbe
    · have := nodup_filterMap_range groups.length
        (fun b => r.any fun e => e.1 == b)
        (fun b => ar.dup ((r.filter fun e => e.1 == b).map Prod.snd))
      exact this
    · intro b hb hnb
      rw [← hsum b hb]
      apply sumAt_eq_zero
      intro e he heb
      apply hnb
      refine List.mem_map.2 ⟨(b, ar.dup ((r.filter fun e => e.1 == b).map Prod.snd)), List.mem_filterMap.2 ⟨b, List.mem_range.2 hb, ?_⟩, rfl⟩
      rw [if_pos (List.any_eq_true.2 ⟨e, he, by simpa using heb⟩)]

/-! ### Weights -/

/-- A sum near a number that is near one is near one. -/
theorem near_trans_one {q r : Nat} {s p : K} (hu : 0 ≤ u) (h : Near u q s p p) (hp : Near u r p 1 1) :
    Near u (q + r) s 1 1 := by
  refine ⟨?_, by simp⟩
  have h1 := h.1
  have h2 := hp.1
  have h3 := hp.bound
  have h4 : p ≤ (1 + u) ^ r := by
    have := le_abs_self p
    rw [mul_one] at h3
    linarith
  have h5 := abs_add_le (s - p) (p - 1)
  have e : s - p + (p - 1) = s - 1 := by ring
  rw [e] at h5
  have h6 : ((1 + u) ^ q - 1) * p ≤ ((1 + u) ^ q - 1) * (1 + u) ^ r :=
    mul_le_mul_of_nonneg_left h4 (by have := one_le_pow' hu q; linarith)
  rw [mul_one] at h2 ⊢
  rw [pow_add]
  linarith

/-- The normalised weights of the groups. -/
theorem fAggregateP_near (hr : RoundsS u B ar) (hu : 0 ≤ u) {n r0 r : Nat} {q p : Nat → K}
    {groups : List (List Nat)} (hg : IsGrouping n groups) (hle : groups.length ≤ n)
    (hq : ∀ i < n, Near u r0 (q i) (p i) (p i))
    (hp : |∑ i ∈ Finset.range n, p i - 1| ≤ (1 + u) ^ r - 1)
    (hs : (1 + u) ^ (3 * r0 + 5 * n + 2 * r) ≤ 3 / 2) (hB : 4 ≤ B) {a : Nat} (ha : a < groups.length) :
    Near u (3 * r0 + 5 * n + 2 * r + 1) (fAggregateP ar q groups a)
      ((groups.getD a []).map p).sum ((groups.getD a []).map p).sum := by
  have hpn : ∀ i < n, 0 ≤ p i := fun i hi => (hq i hi).nonneg
  have hpow : ∀ k ≤ 3 * r0 + 5 * n + 2 * r, (1 + u) ^ k ≤ 3 / 2 := fun k hk =>
    le_trans (pow_le_pow_right₀ (by linarith) hk) hs
  have hP1 : Near u r (∑ i ∈ Finset.range n, p i) 1 1 := ⟨by rw [mul_one]; exact hp, by simp⟩
  have hP : ∑ i ∈ Finset.range n, p i ≤ 3 / 2 := by
    have h1 := hP1.bound
    have h2 := le_abs_self (∑ i ∈ Finset.range n, p i)
    have h3 := hpow r (by omega)
    linarith
  have hmemlt : ∀ g ∈ groups, ∀ i ∈ g, i < n := by
    intro g hgm i hi
    have : i ∈ groups.flatten := List.mem_flatten.2 ⟨g, hgm, hi⟩
    exact List.mem_range.1 (hg.mem_iff.1 this)
  have hgl : ∀ g ∈ groups, g.length ≤ n := by
    intro g hgm
    have h1 : g.length ≤ groups.flatten.length := by
      rw [List.length_flatten]
      exact List.single_le_sum (by simp) _ (List.mem_map_of_mem hgm)
    rw [hg.length_eq, List.length_range] at h1
    exact h1
  have hgs : ∀ g ∈ groups, 0 ≤ (g.map p).sum ∧ (g.map p).sum ≤ ∑ i ∈ Finset.range n, p i := by
    intro g hgm
    refine ⟨map_sum_nonneg g p fun i hi => hpn i (hmemlt g hgm i hi), ?_⟩
    rw [← sum_groups hg]
    apply List.single_le_sum _ _ (List.mem_map_of_mem (f := fun g => (g.map p).sum) hgm)
    intro x hx
    obtain ⟨g', hg', rfl⟩ := List.mem_map.1 hx
    exact map_sum_nonneg g' p fun i hi => hpn i (hmemlt g' hg' i hi)
  have hprod : ∀ k ≤ 3 * r0 + 5 * n + 2 * r, ∀ x, 0 ≤ x → x ≤ 3 / 2 → (1 + u) ^ k * x ≤ B := by
    intro k hk x hx0 hx
    have := mul_le_mul (hpow k hk) hx hx0 (by norm_num)
    linarith
  have hgn : ∀ g ∈ groups, Near u (r0 + n) (ar.sum (g.map q)) (g.map p).sum (g.map p).sum := by
    intro g hgm
    obtain ⟨e1, e2⟩ := hgs g hgm
    have := Near.sum hr.toRounds hu g q p p (fun i hi => hq i (hmemlt g hgm i hi))
      (hprod r0 (by omega) _ e1 (by linarith))
    exact this.mono hu (by have := hgl g hgm; omega)
  have hP0 : 0 ≤ ∑ i ∈ Finset.range n, p i :=
    Finset.sum_nonneg fun i hi => hpn i (Finset.mem_range.1 hi)
  have ht := Near.sum hr.toRounds hu groups (fun g => ar.sum (g.map q)) (fun g => (g.map p).sum)
    (fun g => (g.map p).sum) hgn (by
      rw [sum_groups hg]
      exact hprod (r0 + n) (by omega) _ hP0 hP)
  rw [sum_groups hg] at ht
  have ht' := near_trans_one hu (ht.mono hu (by omega : _ ≤ r0 + 2 * n)) hP1
  obtain ⟨hi, hipos⟩ := near_inv hu ht' (hpow _ (by omega))
  have hga : groups.getD a [] ∈ groups := by
    rw [List.getD_eq_getElem?_getD, List.getElem?_eq_getElem ha]
    exact List.getElem_mem _
  have hm := near_mul hu (hgn _ hga) hi
  rw [mul_one] at hm
  have hm' := hm.mono hu (by omega : _ ≤ 3 * r0 + 5 * n + 2 * r)
  obtain ⟨e1, e2⟩ := hgs _ hga
  have hd := hr.div (ar.sum ((groups.getD a []).map q)) (ar.sum (groups.map fun g => ar.sum (g.map q)))
    hipos.ne' (by
      rw [div_eq_mul_inv]
      exact le_trans hm'.bound (hprod _ le_rfl _ e1 (by linarith)))
  rw [div_eq_mul_inv] at hd
  exact near_round hu hm' hd

/-- `1/n` computed by the machine, next to a scalar weight. -/
theorem scalar_near (hr : RoundsS u B ar) (hu : 0 ≤ u) {n r : Nat} (hn : 0 < n) {a : K} (ha : 0 ≤ a)
    (hna : |n * a - 1| ≤ (1 + u) ^ r - 1) (hs : (1 + u) ^ (2 * r + 2) ≤ 3 / 2) (hB : 4 ≤ B)
    (hBn : (n : K) ≤ B) : Near u (2 * r + 3) (ar.div ar.one (ar.ofInt n)) a a := by
  have hn0 : (0 : K) < n := Nat.cast_pos.2 hn
  have hn1 : (1 : K) ≤ n := Nat.one_le_cast.2 hn
  have hpow : ∀ k ≤ 2 * r + 2, (1 + u) ^ k ≤ 3 / 2 := fun k hk =>
    le_trans (pow_le_pow_right₀ (by linarith) hk) hs
  have h1 : Near u r (n * a) 1 1 := ⟨by rw [mul_one]; exact hna, by simp⟩
  obtain ⟨h2, h2'⟩ := near_inv hu h1 (hpow r (by omega))
  have h3 : Near u 1 (ar.ofInt n / n) 1 1 := by
    refine ⟨?_, by simp⟩
    have e := hr.ofInt n (by rw [Int.cast_natCast, abs_of_pos hn0]; exact hBn)
    rw [Int.cast_natCast, abs_of_pos hn0] at e
    have e1 : ar.ofInt n / n - 1 = (ar.ofInt n - n) / n := by field_simp
    rw [e1, abs_div, abs_of_pos hn0, div_le_iff₀ hn0, pow_one, mul_one]
    linarith
  obtain ⟨h4, h4'⟩ := near_inv hu h3 (hpow 1 (by omega))
  have hN : 0 < ar.ofInt n := by
    have := mul_pos h4' hn0
    rwa [div_mul_cancel₀ _ hn0.ne'] at this
  have ha0 : 0 < a := by
    rcases lt_or_eq_of_le ha with h | h
    · exact h
    · rw [← h, mul_zero] at h2'
      exact absurd h2' (lt_irrefl _)
  have h5 : Near u 0 a a a := by simp [Near, abs_of_pos ha0]
  have h6 := near_mul hu (near_mul hu h5 h2) h4
  have e6 : a * (n * a)⁻¹ * (ar.ofInt n / n)⁻¹ = 1 / ar.ofInt n := by
    field_simp
  simp only [e6, mul_one, zero_add] at h6
  have ha32 : a ≤ 3 / 2 := by
    have e1 := h1.bound
    have e2 := le_abs_self ((n : K) * a)
    have e3 := hpow r (by omega)
    have e4 : 1 * a ≤ n * a := mul_le_mul_of_nonneg_right hn1 ha
    linarith
  have h7 := hr.div 1 (ar.ofInt n) hN.ne' (by
    refine le_trans h6.bound ?_
    have := mul_le_mul (hpow (2 * r + 2) le_rfl) ha32 ha (by norm_num)
    linarith)
  rw [hr.one]
  exact near_round hu h6 h7

/-! ### The level -/

theorem pairSum_block (S : Nat → Nat → K) (c d : Finset Nat) (lst : Finset Nat → List Nat)
    (hnd : ∀ c, (lst c).Nodup) (hmem : ∀ c v, v ∈ lst c ↔ v ∈ c) :
    pairSum S (lst c) (lst d) = blockSum S c d := by
  unfold pairSum blockSum
  rw [list_sum_finset c (lst c) (hnd c) (hmem c)]
  exact Finset.sum_congr rfl fun i _ => list_sum_finset d (lst d) (hnd d) (hmem d) _

/-- What the code starts the aggregation of the weights from. -/
def startP (ar : SArith K) (n : Nat) : Weights K → (Nat → K) × (Nat → K)
  | .scalars _ _ => (fun _ => ar.div ar.one (ar.ofInt n), fun _ => ar.div ar.one (ar.ofInt n))
  | .vectors p1 p2 => (p1, p2)

/-- The weights as two vectors, and what the code starts the aggregation from. -/
theorem weights_near (hr : RoundsS u B ar) (hu : 0 ≤ u) {n r : Nat} (hn : 0 < n) {w : Weights K}
    (hw : WeightsOk u r n w) (hs : (1 + u) ^ (2 * r + 2) ≤ 3 / 2) (hB : 4 ≤ B) (hBn : (n : K) ≤ B) :
    ∃ p1 p2 q1 q2 : Nat → K, (∀ i j, w.p0 i j = p1 i * p2 j) ∧
      startP ar n w = (q1, q2) ∧
      (∀ i < n, Near u (2 * r + 3) (q1 i) (p1 i) (p1 i)) ∧
      (∀ i < n, Near u (2 * r + 3) (q2 i) (p2 i) (p2 i)) ∧
      |∑ i ∈ Finset.range n, p1 i - 1| ≤ (1 + u) ^ r - 1 ∧
      |∑ i ∈ Finset.range n, p2 i - 1| ≤ (1 + u) ^ r - 1 := by
  cases w with
  | scalars a b =>
    obtain ⟨h1, h2, h3, h4⟩ := hw
    refine ⟨fun _ => a, fun _ => b, _, _, fun _ _ => rfl, rfl, ?_, ?_, ?_, ?_⟩
    · intro i _
      exact scalar_near hr hu hn h1 h3 hs hB hBn
    · intro i _
      exact scalar_near hr hu hn h2 h4 hs hB hBn
    · simpa using h3
    · simpa using h4
  | vectors p1 p2 =>
    obtain ⟨h1, h2, h3, h4⟩ := hw
    refine ⟨p1, p2, _, _, fun _ _ => rfl, rfl, ?_, ?_, h3, h4⟩
    · intro i hi
      have : Near u 0 (p1 i) (p1 i) (p1 i) := by simp [Near, abs_of_nonneg (h1 i hi)]
      exact this.mono hu (by omega)
    · intro i hi
      have : Near u 0 (p2 i) (p2 i) (p2 i) := by simp [Near, abs_of_nonneg (h2 i hi)]
      exact this.mono hu (by omega)

theorem val_nonneg {M : Csr K} (hpos : ∀ i < M.nrows, ∀ e ∈ M.row i, 0 < e.2) {i : Nat}
    (hi : i < M.nrows) (j : Nat) : 0 ≤ M.val i j := by
  unfold Csr.val sumAt
  apply List.sum_nonneg
  intro z hz
  obtain ⟨e, he, rfl⟩ := List.mem_map.1 hz
  exact (hpos i hi e (List.mem_filter.1 he).1).le

theorem p0_nonneg {r n : Nat} {w : Weights K} (hw : WeightsOk u r n w) {i j : Nat} (hi : i < n)
    (hj : j < n) : 0 ≤ w.p0 i j := by
  cases w with
  | scalars a b => exact mul_nonneg hw.1 hw.2.1
  | vectors p1 p2 => exact mul_nonneg (hw.1 i hi) (hw.2.1 j hj)

/-- Aggregation gives a level near the exact one. -/
theorem level_agg (hr : RoundsS u B ar) (hu : 0 ≤ u) {r : Nat} {A : Autocov K} (hwf : A.PT.WF)
    (hsq : A.PT.ncols = A.PT.nrows) (hnr : A.PT.NoRepeats)
    (hpos : ∀ i < A.PT.nrows, A.PT.row i ≠ [] ∧ ∀ e ∈ A.PT.row i, 0 < e.2) (hsym : SymmetricOk A)
    (hw : WeightsOk u r A.PT.nrows A.w) (hB : InRangeS u B r A) {p : Part} (h : Consistent p)
    (hn : p.numNodes = A.PT.nrows) (hn0 : 0 < A.PT.nrows) (hne : ∀ c ∈ p.clusters, c.Nonempty)
    (hle : p.clusters.length ≤ A.PT.nrows) (lst : Finset Nat → List Nat)
    (hnd : ∀ c, (lst c).Nodup) (hmem : ∀ c v, v ∈ lst c ↔ v ∈ c) :
    SLevel u (A.PT.nrows ^ 2 + 10 * A.PT.nrows + 16 * r + 20) p.clusters.length (massS A)
      (fAggregate ar A (p.clusters.map lst)) (aggS A.PT.val p.clusters) (aggS A.w.p0 p.clusters) := by
  obtain ⟨hB1, hB2, hB3, hB4⟩ := hB
  have hpart := h.1
  rw [hn] at hpart
  set n := A.PT.nrows with hndef
  set groups := p.clusters.map lst with hgr
  have hg : IsGrouping n groups := isGrouping_lists hpart lst hnd hmem
  have hgl : groups.length = p.clusters.length := by simp [hgr]
  have hgetD : ∀ a < groups.length, groups.getD a [] = lst (p.clusters.getD a ∅) := by
    intro a ha
    rw [hgl] at ha
    simp [hgr, List.getD_eq_getElem?_getD, ha]
  have hpow : ∀ k ≤ roundings r n, (1 + u) ^ k ≤ 3 / 2 := fun k hk =>
    le_trans (pow_le_pow_right₀ (by linarith) hk) hB3
  have hv : ∀ i < n, ∀ j, 0 ≤ A.PT.val i j := fun i hi j => val_nonneg (fun i hi => (hpos i hi).2) hi j
  have hp0 : ∀ i < n, ∀ j < n, 0 ≤ A.w.p0 i j := fun i hi j hj => p0_nonneg hw hi hj
  have hcl : ∀ k, ∀ v ∈ p.clusters.getD k ∅, v < n := fun k v hv => at_lt_n hpart (at_getD.1 hv)
  have hagg : ∀ (S : Nat → Nat → K) a b, a < groups.length → b < groups.length →
      pairSum S (groups.getD a []) (groups.getD b []) = aggS S p.clusters a b := by
    intro S a b ha hb
    rw [hgetD a ha, hgetD b hb, pairSum_block S _ _ lst hnd hmem]
    rfl
  have htn : ∀ a b, 0 ≤ aggS A.PT.val p.clusters a b := fun a b =>
    Finset.sum_nonneg fun i hi => Finset.sum_nonneg fun j hj => hv i (hcl a i hi) j
  have hwn : ∀ a b, 0 ≤ aggS A.w.p0 p.clusters a b := fun a b =>
    Finset.sum_nonneg fun i hi => Finset.sum_nonneg fun j hj => hp0 i (hcl a i hi) j (hcl b j hj)
  have hmass : ∑ a ∈ Finset.range p.clusters.length, ∑ b ∈ Finset.range p.clusters.length,
      (aggS A.PT.val p.clusters a b + aggS A.w.p0 p.clusters a b) = massS A := by
    obtain ⟨lab, hlab⟩ := exists_lab hpart
    have h1 := blockSum_lab (fun i j => A.PT.val i j + A.w.p0 i j) hpart lab hlab (fun _ _ y => y)
      (fun _ _ _ _ => rfl)
    unfold massS
    rw [← hndef, ← h1]
    refine Finset.sum_congr rfl fun a _ => Finset.sum_congr rfl fun b _ => ?_
    unfold aggS blockSum
    rw [← Finset.sum_add_distrib]
    exact Finset.sum_congr rfl fun i _ => Finset.sum_add_distrib.symm
  have hm0 : 0 ≤ massS A := by
    rw [← hmass]
    exact Finset.sum_nonneg fun a _ => Finset.sum_nonneg fun b _ => add_nonneg (htn a b) (hwn a b)
  have htm : ∀ a < p.clusters.length, ∀ b < p.clusters.length,
      aggS A.PT.val p.clusters a b ≤ massS A := by
    intro a ha b hb
    rw [← hmass]
    have h1 := Finset.single_le_sum (f := fun b => aggS A.PT.val p.clusters a b + aggS A.w.p0 p.clusters a b)
      (fun b _ => add_nonneg (htn a b) (hwn a b)) (Finset.mem_range.2 hb)
    have h2 := Finset.single_le_sum (f := fun a => ∑ b ∈ Finset.range p.clusters.length,
      (aggS A.PT.val p.clusters a b + aggS A.w.p0 p.clusters a b))
      (fun a _ => Finset.sum_nonneg fun b _ => add_nonneg (htn a b) (hwn a b)) (Finset.mem_range.2 ha)
    have h3 := hwn a b
    linarith
  have hpt : ∀ a < groups.length, _ := fun a ha => fAggregatePT_near (n := n) hr hu hwf hndef.symm hsq hnr
    (fun i hi => (hpos i hi).2) hg (hpow _ (by unfold roundings; omega))
    (by
      intro a ha b hb
      rw [hagg _ a b ha hb]
      have h1 := htm a (hgl ▸ ha) b (hgl ▸ hb)
      have h2 : (1 + u) ^ (n ^ 2) ≤ (1 + u) ^ roundings r n := pow_le_pow_right₀ (by linarith)
        (by unfold roundings; omega)
      have h3 : aggS A.PT.val p.clusters a b ≤ 4 * massS A := by linarith
      exact le_trans (mul_le_mul h2 h3 (htn a b) (by positivity)) hB1) (a := a) ha
  obtain ⟨hwf', hrows, hcols⟩ := wf_fAggregatePT ar A.PT groups
  have hBn : (n : K) ≤ B := by
    have : (0 : K) ≤ n := Nat.cast_nonneg _
    linarith
  obtain ⟨p1, p2, q1, q2, e0, eq, n1, n2, s1, s2⟩ := weights_near hr hu hn0 hw
    (hpow _ (by unfold roundings; omega)) hB4 hBn
  have hA : fAggregate ar A groups = mkAutocov (fAggregatePT ar A.PT groups)
      (.vectors (fAggregateP ar q1 groups) (fAggregateP ar q2 groups)) A.symmetric := by
    have h1 : fAggregate ar A groups = mkAutocov (fAggregatePT ar A.PT groups)
        (.vectors (fAggregateP ar (startP ar n A.w).1 groups)
          (fAggregateP ar (startP ar n A.w).2 groups)) A.symmetric := by
      unfold fAggregate startP
      cases A.w <;> rfl
    rw [h1, eq]
  rw [hA]
  have hlen : (fAggregatePT ar A.PT groups).nrows = p.clusters.length := by rw [hrows, hgl]
  rw [← hlen]
  have hlt : ∀ {k}, k < (fAggregatePT ar A.PT groups).nrows → k < groups.length := fun hk => hrows ▸ hk
  apply level_mk hwf' (by rw [hcols, hrows])
  · intro k hk e he
    have he1 : e.1 < groups.length := hcols ▸ hwf'.row_lt k e he
    have := (hpt k (hlt hk)).1 e he
    rw [hagg _ k e.1 (hlt hk) he1] at this
    exact this.mono hu (by omega)
  · intro k hk
    exact (hpt k (hlt hk)).2.1
  · intro k hk j hj hnot
    rw [← hagg _ k j (hlt hk) (hlt hj)]
    exact (hpt k (hlt hk)).2.2 j (hlt hj) hnot
  · intro k hk hemp
    have hk' := hlt hk
    have hzero : ∀ b < groups.length, pairSum A.PT.val (groups.getD k []) (groups.getD b []) = 0 := by
      intro b hb
      exact (hpt k hk').2.2 b hb (by rw [hemp]; simp)
    obtain ⟨i, hi⟩ : (p.clusters.getD k ∅).Nonempty := by
      apply hne
      rw [hgl] at hk'
      rw [List.getD_eq_getElem?_getD, List.getElem?_eq_getElem hk']
      exact List.getElem_mem _
    have hin := hcl k i hi
    obtain ⟨e, he⟩ := List.exists_mem_of_ne_nil _ (hpos i hin).1
    have hep := (hpos i hin).2 e he
    have hen : e.1 < n := hsq ▸ hwf.row_lt i e he
    obtain ⟨b, hb, hbe⟩ := exists_group hg e.1 hen
    have h1 := hzero b hb
    rw [hagg _ k b hk' hb] at h1
    have hbe' : e.1 ∈ p.clusters.getD b ∅ := by
      rw [hgetD b hb] at hbe
      exact (hmem _ _).1 hbe
    have h2 : A.PT.val i e.1 = e.2 := sumAt_of_mem _ (hnr i hin) e he
    have h3 := Finset.single_le_sum (f := fun j => A.PT.val i j) (fun j _ => hv i hin j) hbe'
    have h4 := Finset.single_le_sum (f := fun i => ∑ j ∈ p.clusters.getD b ∅, A.PT.val i j)
      (fun i hi => Finset.sum_nonneg fun j _ => hv i (hcl k i hi) j) hi
    unfold aggS blockSum at h1
    linarith
  · intro hs i hi j hj
    unfold aggS blockSum
    rw [Finset.sum_comm]
    exact Finset.sum_congr rfl fun b hb => Finset.sum_congr rfl fun a ha =>
      hsym hs a b (hcl i a ha) (hcl j b hb)
  · intro i _ j _
    exact htn i j
  · intro i _ j _
    exact hwn i j
  · intro i hi j hj
    have m1 := fAggregateP_near hr hu hg (by rw [hgl]; exact hle) n1 s1
      (hpow _ (by unfold roundings; nlinarith)) hB4 (hlt hi)
    have m2 := fAggregateP_near hr hu hg (by rw [hgl]; exact hle) n2 s2
      (hpow _ (by unfold roundings; nlinarith)) hB4 (hlt hj)
    have m3 := near_mul hu m1 m2
    rw [sum_mul_sum, hagg _ i j (hlt hi) (hlt hj)] at m3
    have e1 : (fun i j => p1 i * p2 j) = A.w.p0 := by
      funext i j
      exact (e0 i j).symm
    rw [e1] at m3
    exact m3.mono hu (by nlinarith)
  · rw [hlen, hmass]

end Verif.SparseRound
