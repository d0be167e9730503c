import Verif.Clique.Spec
import Verif.Local.Lemmas

/-!
# Groups that meet: the exponential on a block
-/

set_option linter.dupNamespace false
set_option linter.unusedSectionVars false

namespace Verif.Clique

open Verif.TempNet Verif.Trans Verif.Flow Verif.EndToEnd Verif.Average Verif.Groups Verif.Noise Verif.Causal Verif.Local Finset NormedSpace

open scoped Nat

/-- The projection away from the mean over `I`. -/
noncomputable def Pm (I : Finset Nat) : Mat ℝ := fun i j => (if i = j then 1 else 0) - if j ∈ I then 1 / (I.card : ℝ) else 0

/-- What is left after the part away from the mean has decayed. -/
noncomputable def Mx (I : Finset Nat) (c : ℝ) : Mat ℝ := fun i j => (if i = j then 1 else 0) + (Real.exp (-c) - 1) * Pm I i j

variable {n : Nat} {I : Finset Nat}

theorem Pm_out {i a : Nat} (hi : i ∈ I) (ha : a ∉ I) : Pm I i a = 0 := by
  unfold Pm
  rw [if_neg (by rintro rfl; exact ha hi), if_neg ha, sub_zero]

theorem Pm_mul (hI : I ⊆ range n) {i j : Nat} (hi : i ∈ I) : ∑ a ∈ range n, Pm I i a * Pm I a j = Pm I i j := by
  have hne : (I.card : ℝ) ≠ 0 := by
    have := Finset.card_pos.2 ⟨i, hi⟩
    exact_mod_cast this.ne'
  rw [← Finset.sum_subset hI fun a _ ha => by rw [Pm_out hi ha, zero_mul]]
  have e : ∀ a ∈ I, Pm I i a * Pm I a j = (if i = a then Pm I a j else 0) - 1 / (I.card : ℝ) * (if a = j then 1 else 0) +
      1 / (I.card : ℝ) * (if j ∈ I then 1 / (I.card : ℝ) else 0) := by
    intro a ha
    unfold Pm
    rw [if_pos ha]
    split_ifs <;> ring
  rw [sum_congr rfl e, sum_add_distrib, sum_sub_distrib, Finset.sum_ite_eq, if_pos hi, ← mul_sum, Finset.sum_ite_eq', sum_const,
    nsmul_eq_mul]
  split_ifs
  · field_simp
    ring
  · simp

theorem pow_block (hI : I ⊆ range n) {B : Mat ℝ} {c : ℝ} (hB : ∀ i ∈ I, ∀ j < n, B i j = -c * Pm I i j) (q : ℕ) :
    ∀ i : Fin n, (i : Nat) ∈ I → ∀ j : Fin n,
      ((Matrix.of fun a b : Fin n => B a b) ^ (q + 1)) i j = (-c) ^ (q + 1) * Pm I i j := by
  induction q with
  | zero =>
    intro i hi j
    rw [zero_add, pow_one, pow_one, Matrix.of_apply, hB i hi j j.2]
  | succ q ih =>
    intro i hi j
    rw [pow_succ', Matrix.mul_apply]
    have e : ∀ a : Fin n, (Matrix.of fun a b : Fin n => B a b) i a * ((Matrix.of fun a b : Fin n => B a b) ^ (q + 1)) a j =
        (-c) ^ (q + 1 + 1) * (Pm I i a * Pm I a j) := by
      intro a
      rw [Matrix.of_apply, hB i hi a a.2]
      by_cases ha : (a : Nat) ∈ I
      · rw [ih a ha j, pow_succ (-c) (q + 1)]
        ring
      · rw [Pm_out hi ha]
        ring
    rw [sum_congr rfl fun a _ => e a, ← mul_sum, ← Pm_mul hI hi, sum_range]

/-- The exponential of a generator that mixes a block. -/
theorem expm_block (hI : I ⊆ range n) {B : Mat ℝ} {c : ℝ} (hB : ∀ i ∈ I, ∀ j < n, B i j = -c * Pm I i j) :
    ∀ i ∈ I, ∀ j < n, expm n B i j = Mx I c i j := by
  intro i hi j hj
  have hin : i < n := mem_range.1 (hI hi)
  have h1 := hasSum_exp_apply (Matrix.of fun a b : Fin n => B a b) ⟨i, hin⟩ ⟨j, hj⟩
  have h2 : HasSum (fun q : ℕ => (-c) ^ q / (q ! : ℝ)) (Real.exp (-c)) := by
    rw [Real.exp_eq_exp_ℝ]
    exact NormedSpace.expSeries_div_hasSum_exp (-c)
  have h3 := (h2.mul_right (Pm I i j)).add (hasSum_ite_eq (0 : ℕ) ((if i = j then (1 : ℝ) else 0) - Pm I i j))
  have e : (fun q : ℕ => (q ! : ℝ)⁻¹ * ((Matrix.of fun a b : Fin n => B a b) ^ q) ⟨i, hin⟩ ⟨j, hj⟩) =
      fun q : ℕ => (-c) ^ q / (q ! : ℝ) * Pm I i j + if q = 0 then (if i = j then (1 : ℝ) else 0) - Pm I i j else 0 := by
    funext q
    cases q with
    | zero => simp [Matrix.one_apply]
    | succ q =>
      rw [pow_block hI hB q ⟨i, hin⟩ hi ⟨j, hj⟩, if_neg (Nat.succ_ne_zero q)]
      ring
  rw [e] at h1
  unfold expm
  rw [dif_pos ⟨hin, hj⟩, h1.unique h3]
  unfold Mx
  ring

theorem Mx_out {c : ℝ} {i a : Nat} (hi : i ∈ I) (ha : a ∉ I) : Mx I c i a = 0 := by
  unfold Mx
  rw [Pm_out hi ha, if_neg (by rintro rfl; exact ha hi)]
  ring

theorem Mx_zero (i j : Nat) : Mx I 0 i j = eye i j := by
  unfold Mx eye
  simp

/-- Decays one after the other add up. -/
theorem Mx_mul (hI : I ⊆ range n) {c d : ℝ} {i j : Nat} (hi : i ∈ I) (hj : j < n) {P E : Mat ℝ} (hP : ∀ a < n, P i a = Mx I c i a)
    (hE : ∀ a ∈ I, ∀ b < n, E a b = Mx I d a b) : mul n P E i j = Mx I (c + d) i j := by
  have hin : i < n := mem_range.1 (hI hi)
  have e : ∀ a ∈ range n, P i a * E a j = (if i = a then Mx I d a j else 0) + (Real.exp (-c) - 1) * ((if a = j then Pm I i a else 0) +
      (Real.exp (-d) - 1) * (Pm I i a * Pm I a j)) := by
    intro a ha
    rw [hP a (mem_range.1 ha)]
    by_cases haI : a ∈ I
    · rw [hE a haI j hj]
      unfold Mx
      split_ifs <;> ring
    · rw [Mx_out hi haI, Pm_out hi haI, if_neg (by rintro rfl; exact haI hi)]
      simp
  unfold mul
  rw [sum_congr rfl e, sum_add_distrib, sum_ite_eq, if_pos (mem_range.2 hin), ← mul_sum, sum_add_distrib, sum_ite_eq',
    if_pos (mem_range.2 hj), ← mul_sum, Pm_mul hI hi]
  unfold Mx
  rw [neg_add, Real.exp_add]
  ring

/-! ## Walks -/

variable {L : Type} [LinearOrder L] {evs : List (Event L ℝ)} {nodes : List L} {G : Finset L} {D : Set ℝ}

/-- Where the members of `G` are in the list of nodes. -/
def places (nodes : List L) (G : Finset L) : Finset Nat := (range nodes.length).filter fun i => ∃ x ∈ G, nodes[i]? = some x

theorem mem_places {i : Nat} (hi : i < nodes.length) : i ∈ places nodes G ↔ nodes[i] ∈ G := by
  unfold places
  rw [mem_filter, List.getElem?_eq_getElem hi]
  simp [hi]

theorem card_places (hn : NodesOf evs nodes) (hG : ∀ x ∈ G, x ∈ nodes) : (places nodes G).card = G.card := by
  refine Finset.card_bij (fun i hi => nodes[i]'(mem_range.1 (mem_filter.1 hi).1)) ?_ ?_ ?_
  · intro i hi
    exact (mem_places (mem_range.1 (mem_filter.1 hi).1)).1 hi
  · intro i _ j _ h
    exact (nodup_of hn).getElem_inj_iff.1 h
  · intro x hx
    obtain ⟨i, hi, rfl⟩ := List.getElem_of_mem (hG x hx)
    exact ⟨i, (mem_places hi).2 hx, rfl⟩

open Classical in
/-- The generator on a group that meets. -/
theorem gen_block (hn : NodesOf evs nodes) (hG : ∀ x ∈ G, x ∈ nodes) (hk : 2 ≤ G.card) (hm : Meets evs G D) (u : ℝ) {i : Nat}
    (hi : i ∈ places nodes G) {j : Nat} (hj : j < nodes.length) :
    gen evs nodes u i j = (if u ∈ D then (G.card : ℝ) / (G.card - 1) else 0) * Pm (places nodes G) i j := by
  have hin : i < nodes.length := mem_range.1 (mem_filter.1 hi).1
  have hx := (mem_places hin).1 hi
  have hdeg := degree_labels hn u hin
  have hk' : (2 : ℝ) ≤ G.card := by exact_mod_cast hk
  have hk1 : (G.card : ℝ) - 1 ≠ 0 := by linarith
  unfold gen walkLaplacian
  by_cases hu : u ∈ D
  · have hset : {z | Touch evs u nodes[i] z} = ↑(G.erase nodes[i]) := by
      ext z
      rw [Set.mem_setOf_eq, hm _ hx, Finset.mem_coe, Finset.mem_erase]
      tauto
    rw [hset, Set.ncard_coe_finset, Finset.card_erase_of_mem hx] at hdeg
    have hcast : ((G.card - 1 : ℕ) : ℝ) = G.card - 1 := by
      rw [Nat.cast_sub (by omega), Nat.cast_one]
    rw [hdeg, if_neg (by omega : G.card - 1 ≠ 0), if_pos hu, hcast, touch_contact hin hj, hm _ hx]
    unfold Pm
    rw [card_places hn hG]
    by_cases hij : i = j
    · subst hij
      rw [if_pos rfl, if_neg (by simp), if_pos hi]
      field_simp
      ring
    · have hne : nodes[j] ≠ nodes[i] := fun h => hij ((nodup_of hn).getElem_inj_iff.1 h).symm
      rw [if_neg hij]
      by_cases hjG : nodes[j] ∈ G
      · rw [if_pos ⟨hu, hjG, hne⟩, if_pos ((mem_places hj).2 hjG)]
        field_simp
        ring
      · rw [if_neg (fun h => hjG h.2.1), if_neg (fun h => hjG ((mem_places hj).1 h))]
        ring
  · have hset : {z | Touch evs u nodes[i] z} = ∅ := by
      ext z
      rw [Set.mem_setOf_eq, hm _ hx]
      simp [hu]
    rw [hset, Set.ncard_empty] at hdeg
    rw [hdeg, if_pos rfl, if_neg hu]
    ring

/-- Within a step of the grid the group meets always or never. -/
theorem meets_const (hG : ∀ x ∈ G, x ∈ nodes) (hk : 2 ≤ G.card) (hm : Meets evs G D) {ts : List ℝ} (hc : Covers evs ts) {k : ℕ}
    (hkt : k < ts.length - 1) {u : ℝ} (h1 : at' ts k ≤ u) (h2 : u < at' ts (k + 1)) : u ∈ D ↔ at' ts k ∈ D := by
  obtain ⟨x, hx, y, hy, hxy⟩ := Finset.one_lt_card.1 (show 1 < G.card by omega)
  obtain ⟨i, hi, rfl⟩ := List.getElem_of_mem (hG x hx)
  obtain ⟨j, hj, rfl⟩ := List.getElem_of_mem (hG y hy)
  have h := contact_const hc nodes hkt h1 h2 i j
  rw [touch_contact hi hj, touch_contact hi hj, hm _ hx, hm _ hx] at h
  constructor
  · intro hu
    exact (h.1 ⟨hu, hy, hxy.symm⟩).1
  · intro hu
    exact (h.2 ⟨hu, hy, hxy.symm⟩).1

theorem gap_none {D : Set ℝ} {s u : ℝ} (h : ∀ v, s ≤ v → v < u → v ∉ D) : gap D s u = 0 := by
  unfold gap
  have : D ∩ Set.Ico s u = ∅ := by
    ext v
    simp only [Set.mem_inter_iff, Set.mem_Ico, Set.mem_empty_iff_false, iff_false]
    exact fun hv => h v hv.2.1 hv.2.2 hv.1
  rw [this]
  simp

theorem step_block (hn : NodesOf evs nodes) (hG : ∀ x ∈ G, x ∈ nodes) (hk : 2 ≤ G.card) (hm : Meets evs G D) {ts : List ℝ}
    (hc : Covers evs ts) {k : ℕ} (hkt : k < ts.length - 1) (rate : ℝ) :
    ∀ i ∈ places nodes G, ∀ j < nodes.length,
      expm nodes.length (fun i j => -((at' ts (k + 1) - at' ts k) * rate) * gen evs nodes (at' ts k) i j) i j =
        Mx (places nodes G) (rate * ((G.card : ℝ) / (G.card - 1)) * gap D (at' ts k) (at' ts (k + 1))) i j := by
  classical
  refine expm_block (I := places nodes G) (Finset.filter_subset _ _) ?_
  intro i hi j hj
  rw [gen_block hn hG hk hm _ hi hj]
  by_cases hu : at' ts k ∈ D
  · rw [if_pos hu, gap_full (times_lt hc.1 (Nat.lt_succ_self k) (by omega)).le
      fun v hv => (meets_const hG hk hm hc hkt hv.1 hv.2).2 hu]
    ring
  · rw [if_neg hu, gap_none fun v h1 h2 hv => hu ((meets_const hG hk hm hc hkt h1 h2).1 hv)]
    ring

/-- The rows of the group along the walk. -/
theorem walk_block (hn : NodesOf evs nodes) (hG : ∀ x ∈ G, x ∈ nodes) (hk : 2 ≤ G.card) (hm : Meets evs G D) {ts : List ℝ}
    (hc : Covers evs ts) {rate : ℝ} {reverse : Bool} {P : ℝ → Mat ℝ}
    (hP : Walk nodes.length rate (gen evs nodes) (at' ts 0) (at' ts (ts.length - 1)) reverse P) :
    ∀ i ∈ places nodes G, ∀ j < nodes.length, P (if reverse then at' ts 0 else at' ts (ts.length - 1)) i j =
      Mx (places nodes G) (rate * ((G.card : ℝ) / (G.card - 1)) * gap D (at' ts 0) (at' ts (ts.length - 1))) i j := by
  intro i hi
  have hin : i < nodes.length := mem_range.1 (mem_filter.1 hi).1
  have hI : places nodes G ⊆ range nodes.length := Finset.filter_subset _ _
  have hgr := covers_grid hc nodes
  have hmono : ∀ {a b : ℕ}, a ≤ b → b ≤ ts.length - 1 → at' ts a ≤ at' ts b := fun hab hb => grid_mono hgr.mono hab hb
  cases reverse
  · simp only [Bool.false_eq_true, if_false]
    have key : ∀ k, k ≤ ts.length - 1 → ∀ j < nodes.length, P (at' ts k) i j =
        Mx (places nodes G) (rate * ((G.card : ℝ) / (G.card - 1)) * gap D (at' ts 0) (at' ts k)) i j := by
      intro k
      induction k with
      | zero =>
        intro _ j hj
        have h1 := hP.start
        simp only [Bool.false_eq_true, if_false] at h1
        rw [h1 i hin j hj, gap_self, mul_zero, Mx_zero]
      | succ k ih =>
        intro hkt j hj
        have m := hP.moves _ _ (hmono (Nat.zero_le k) (by omega)) (hmono (Nat.le_succ k) hkt) (hmono hkt le_rfl) (hgr.same (by omega : k < ts.length - 1) le_rfl le_rfl)
        simp only [Bool.false_eq_true, if_false] at m
        rw [m i hin j hj, Mx_mul hI hi hj (ih (by omega)) (step_block hn hG hk hm hc (by omega) rate), ← mul_add,
          gap_add D (hmono (Nat.zero_le k) (by omega)) (hmono (Nat.le_succ k) hkt)]
    exact key _ le_rfl
  · simp only [if_true]
    have key : ∀ d, d ≤ ts.length - 1 → ∀ j < nodes.length, P (at' ts (ts.length - 1 - d)) i j =
        Mx (places nodes G) (rate * ((G.card : ℝ) / (G.card - 1)) * gap D (at' ts (ts.length - 1 - d)) (at' ts (ts.length - 1))) i j := by
      intro d
      induction d with
      | zero =>
        intro _ j hj
        have h1 := hP.start
        simp only [if_true] at h1
        rw [Nat.sub_zero, h1 i hin j hj, gap_self, mul_zero, Mx_zero]
      | succ d ih =>
        intro hd j hj
        have ih := ih (by omega)
        obtain ⟨k, hkd⟩ : ∃ k, k = ts.length - 1 - (d + 1) := ⟨_, rfl⟩
        rw [show ts.length - 1 - d = k + 1 from by omega] at ih
        rw [← hkd]
        have m := hP.moves _ _ (hmono (Nat.zero_le k) (by omega)) (hmono (Nat.le_succ k) (by omega)) (hmono (by omega : k + 1 ≤ _) le_rfl) (hgr.same (by omega : k < ts.length - 1) le_rfl le_rfl)
        simp only [if_true] at m
        rw [m i hin j hj, Mx_mul hI hi hj ih (step_block hn hG hk hm hc (by omega) rate), ← mul_add, add_comm (gap D _ _),
          gap_add D (hmono (Nat.le_succ k) (by omega)) (hmono (by omega : k + 1 ≤ _) le_rfl)]
    have := key (ts.length - 1) le_rfl
    rwa [Nat.sub_self] at this

end Verif.Clique
