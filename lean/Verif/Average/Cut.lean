import Verif.Average.Props

/-!
# Cutting a contact changes the flow covariance: property C128
-/

set_option linter.dupNamespace false
set_option linter.unusedSectionVars false

namespace Verif.Average

open Verif.TempNet Verif.Trans Verif.Flow Verif.EndToEnd Verif.Decay Verif.Autocov Finset NormedSpace
open scoped Nat

variable {L : Type} [LinearOrder L]

/-! ## The walk of a pair -/

/-- Laplacian of two nodes in contact. -/
def pairLap : Mat ℝ := fun i j => if i = j then 1 else -1

theorem expm_pair (t : ℝ) : EqOn 2 (expm 2 fun i j => -t * pairLap i j)
    fun i j => if i = j then (1 + Real.exp (-(2 * t))) / 2 else (1 - Real.exp (-(2 * t))) / 2 := by
  set Q : Matrix (Fin 2) (Fin 2) ℝ := Matrix.of fun a b => if a = b then 1 / 2 else -(1 / 2) with hQ
  have hQQ : Q * Q = Q := by
    ext a b
    fin_cases a <;> fin_cases b <;> simp [hQ, Matrix.mul_apply, Fin.sum_univ_two] <;> norm_num
  have hA : (Matrix.of fun a b : Fin 2 => -t * pairLap a b) = (-(2 * t)) • Q := by
    ext a b
    fin_cases a <;> fin_cases b <;> simp [hQ, pairLap] <;> ring
  have hpow : ∀ k : ℕ, ((-(2 * t)) • Q) ^ (k + 1) = ((-(2 * t)) ^ (k + 1)) • Q := by
    intro k
    induction k with
    | zero => simp
    | succ k ih => rw [pow_succ, ih, smul_mul_smul_comm, hQQ, ← pow_succ]
  intro i hi j hj
  unfold expm
  rw [dif_pos ⟨hi, hj⟩, hA]
  have h1 := hasSum_exp_apply ((-(2 * t)) • Q) ⟨i, hi⟩ ⟨j, hj⟩
  have h2 : HasSum (fun k : ℕ => ((-(2 * t)) ^ k / k ! ) * Q ⟨i, hi⟩ ⟨j, hj⟩) (Real.exp (-(2 * t)) * Q ⟨i, hi⟩ ⟨j, hj⟩) := by
    rw [Real.exp_eq_exp_ℝ]
    exact (expSeries_div_hasSum_exp (-(2 * t))).mul_right _
  have h3 : HasSum (fun k : ℕ => if k = 0 then (1 : Matrix (Fin 2) (Fin 2) ℝ) ⟨i, hi⟩ ⟨j, hj⟩ - Q ⟨i, hi⟩ ⟨j, hj⟩ else 0)
      ((1 : Matrix (Fin 2) (Fin 2) ℝ) ⟨i, hi⟩ ⟨j, hj⟩ - Q ⟨i, hi⟩ ⟨j, hj⟩) := hasSum_ite_eq 0 _
  have h4 := h2.add h3
  have e : (fun k : ℕ => ((-(2 * t)) ^ k / k ! ) * Q ⟨i, hi⟩ ⟨j, hj⟩ +
      (if k = 0 then (1 : Matrix (Fin 2) (Fin 2) ℝ) ⟨i, hi⟩ ⟨j, hj⟩ - Q ⟨i, hi⟩ ⟨j, hj⟩ else 0)) =
      fun k : ℕ => ((k ! : ℕ) : ℝ)⁻¹ * (((-(2 * t)) • Q) ^ k) ⟨i, hi⟩ ⟨j, hj⟩ := by
    funext k
    cases k with
    | zero => simp
    | succ k =>
      rw [hpow, Matrix.smul_apply, smul_eq_mul, if_neg (by omega), add_zero]
      ring
  rw [e] at h4
  rw [h1.unique h4]
  have hi' : i = 0 ∨ i = 1 := by omega
  have hj' : j = 0 ∨ j = 1 := by omega
  rcases hi' with rfl | rfl <;> rcases hj' with rfl | rfl <;> simp [hQ] <;> ring

/-- Weight one for the first node. -/
def first : Nat → ℝ := fun i => if i = 0 then 1 else 0

theorem form_first (A : Mat ℝ) : form 2 A first = A 0 0 := by
  unfold form first
  simp [sum_range_succ]

theorem cov_pair (t : ℝ) :
    form 2 (covAt 2 (everywhere 2) (expm 2 fun i j => -t * pairLap i j)) first = Real.exp (-(4 * t)) / 4 := by
  rw [form_congr (covAt_congr _ (expm_pair t)) first, form_first]
  have ha : ∀ k < 2, after 2 (everywhere 2) (fun i j => if i = j then (1 + Real.exp (-(2 * t))) / 2
      else (1 - Real.exp (-(2 * t))) / 2) k = 1 / 2 := by
    intro k hk
    have : k = 0 ∨ k = 1 := by omega
    unfold after everywhere
    rcases this with rfl | rfl <;> simp [sum_range_succ] <;> ring
  unfold covAt
  rw [sum_range_succ, sum_range_succ, sum_range_zero, ha 0 (by omega), ha 1 (by omega)]
  have e : Real.exp (-(4 * t)) = Real.exp (-(2 * t)) ^ 2 := by
    rw [← Real.exp_nat_mul]; congr 1; push_cast; ring
  rw [e]
  unfold everywhere
  norm_num
  ring

/-! ## One contact, whole and cut -/

variable {x y : L} {a m b : ℝ}

/-- One contact. -/
def whole (x y : L) (a b : ℝ) : List (Event L ℝ) := [⟨x, y, a, b⟩]

/-- The same contact, recorded in two parts. -/
def parts (x y : L) (a m b : ℝ) : List (Event L ℝ) := [⟨x, y, a, m⟩, ⟨x, y, m, b⟩]

theorem whole_good (hxy : x < y) (hab : a < b) : GoodContacts (whole x y a b) where
  nonempty := by simp [whole]
  lasting := by simp [whole, hab]
  different := by simp [whole, ne_of_lt hxy]
  separate := by simp [whole]

theorem parts_good (hxy : x < y) (h1 : a < m) (h2 : m < b) : GoodContacts (parts x y a m b) where
  nonempty := by simp [parts]
  lasting := by simp [parts, h1, h2]
  different := by simp [parts, ne_of_lt hxy]
  separate := by simp [parts]

theorem whole_nodes (hxy : x < y) : NodesOf (whole x y a b) [x, y] := by
  refine ⟨by simp [hxy], fun l => by simp [whole]⟩

theorem parts_nodes (hxy : x < y) : NodesOf (parts x y a m b) [x, y] := by
  refine ⟨by simp [hxy], fun l => by simp [parts]⟩

theorem whole_times (hab : a < b) : TimesOf (whole x y a b) [a, b] := by
  refine ⟨by simp [hab], fun l => by simp [whole]⟩

theorem parts_times (h1 : a < m) (h2 : m < b) : TimesOf (parts x y a m b) [a, m, b] := by
  refine ⟨by simp [h1, h2, h1.trans h2], fun l => ?_⟩
  simp only [parts, List.mem_cons, List.not_mem_nil, or_false, exists_eq_or_imp, exists_eq_left]
  tauto

theorem parts_same (h1 : a < m) (h2 : m < b) : SameMoments (whole x y a b) (parts x y a m b) [x, y] := by
  intro u i j
  unfold InContact whole parts
  simp only [List.mem_cons, List.not_mem_nil, or_false, exists_eq_or_imp, exists_eq_left]
  constructor
  · rintro ⟨p1, p2, p3⟩
    rcases lt_or_ge u m with h | h
    · exact .inl ⟨p1, h, p3⟩
    · exact .inr ⟨h, p2, p3⟩
  · rintro (⟨p1, p2, p3⟩ | ⟨p1, p2, p3⟩)
    · exact ⟨p1, p2.trans h2, p3⟩
    · exact ⟨h1.le.trans p1, p2, p3⟩

theorem whole_contact (hxy : x < y) {u : ℝ} (h1 : a ≤ u) (h2 : u < b) :
    EqOn 2 (walkLaplacian 2 (InContact (whole x y a b) [x, y] u)) pairLap := by
  classical
  have hc : ∀ i < 2, ∀ j < 2, InContact (whole x y a b) [x, y] u i j ↔ i ≠ j := by
    intro i hi j hj
    have hi' : i = 0 ∨ i = 1 := by omega
    have hj' : j = 0 ∨ j = 1 := by omega
    unfold InContact whole
    rcases hi' with rfl | rfl <;> rcases hj' with rfl | rfl <;> simp [h1, h2, ne_of_lt hxy, ne_of_gt hxy]
  have hd : ∀ i < 2, degree 2 (InContact (whole x y a b) [x, y] u) i = 1 := by
    intro i hi
    unfold degree
    have : ((range 2).filter fun j => InContact (whole x y a b) [x, y] u i j) = (range 2).filter fun j => i ≠ j := by
      apply filter_congr
      intro j hj
      exact hc i hi j (mem_range.1 hj)
    have hi' : i = 0 ∨ i = 1 := by omega
    convert (show ((range 2).filter fun j => i ≠ j).card = 1 by rcases hi' with rfl | rfl <;> rfl) using 2
  intro i hi j hj
  unfold walkLaplacian pairLap
  rw [hd i hi]
  by_cases hij : i = j
  · rw [if_pos hij, if_neg one_ne_zero, if_neg (fun h => (hc i hi j hj).1 h hij), if_pos hij, sub_zero]
  · rw [if_neg hij, if_neg one_ne_zero, if_pos ((hc i hi j hj).2 hij), if_neg hij]
    norm_num

/-- Covariance of the walk of the pair after some time. -/
theorem along_pair (hxy : x < y) {scale : ℝ} {reverse : Bool} {P : ℝ → Mat ℝ} (hab : a < b)
    (hP : ContactWalk (whole x y a b) [x, y] scale a b reverse P) {u : ℝ} (h1 : a ≤ u) (h2 : u ≤ b) :
    along 2 (everywhere 2) first P u = Real.exp (-(4 * ((if reverse then b - u else u - a) / scale))) / 4 := by
  have hconst : ∀ s u, a ≤ s → s < u → u ≤ b → ∀ v, s ≤ v → v < u →
      EqOn 2 (walkLaplacian 2 (InContact (whole x y a b) [x, y] v)) (walkLaplacian 2 (InContact (whole x y a b) [x, y] s)) :=
    fun s u hs hsu hu v hv hvu => (whole_contact hxy (hs.trans hv) (hvu.trans_le hu)).trans
      (whole_contact hxy hs (hsu.trans_le hu)).symm
  rw [← cov_pair]
  unfold along
  refine form_congr (covAt_congr _ ?_) first
  cases reverse
  · simp only [Bool.false_eq_true, if_false]
    rcases h1.eq_or_lt with rfl | hau
    · refine hP.start.trans (EqOn.symm (expm_zero fun i _ j _ => by simp))
    · have hm := hP.moves a u le_rfl h1 h2 (hconst a u le_rfl hau h2)
      simp only [Bool.false_eq_true, if_false] at hm
      refine hm.trans ((mul_congr hP.start (EqOn.refl _ _)).trans ((eye_mul _).trans ?_))
      rw [expm_congr (B := fun i j => -((u - a) / scale) * pairLap i j)]
      · exact EqOn.refl _ _
      · intro i hi j hj
        show _ * walkLaplacian 2 _ i j = _
        rw [whole_contact hxy le_rfl hab i hi j hj, mul_one_div]
  · simp only [if_true]
    rcases h2.eq_or_lt with rfl | hub
    · refine hP.start.trans (EqOn.symm (expm_zero fun i _ j _ => by simp))
    · have hm := hP.moves u b h1 h2 le_rfl (hconst u b h1 hub le_rfl)
      simp only [if_true] at hm
      refine hm.trans ((mul_congr hP.start (EqOn.refl _ _)).trans ((eye_mul _).trans ?_))
      rw [expm_congr (B := fun i j => -((b - u) / scale) * pairLap i j)]
      · exact EqOn.refl _ _
      · intro i hi j hj
        show _ * walkLaplacian 2 _ i j = _
        rw [whole_contact hxy h1 hub i hi j hj, mul_one_div]

/-- **C128 (violated)**.  For all pairs of labels, times and time scales: one contact, and the same
contact recorded in two parts, give different covariances, although the same labels are in contact at
all times. -/
theorem C128_cut_violated (hxy : x < y) (h1 : a < m) (h2 : m < b) {scale : ℝ} (hs : 0 < scale) (sf sf' : Nat → Bool)
    (reverse : Bool) :
    SameMoments (whole x y a b) (parts x y a m b) [x, y] ∧
    ∃ S S', computedFlow sf (whole x y a b) scale reverse = some S ∧
      computedFlow sf' (parts x y a m b) scale reverse = some S' ∧ S 0 0 = Real.exp (-(4 * ((b - a) / scale))) / 4 ∧
      S 0 0 < S' 0 0 := by
  refine ⟨parts_same h1 h2, ?_⟩
  have hab := h1.trans h2
  have hn := whole_nodes (a := a) (b := b) hxy
  have hn' := parts_nodes (a := a) (m := m) (b := b) hxy
  have ht := whole_times (x := x) (y := y) hab
  have ht' := parts_times (x := x) (y := y) h1 h2
  obtain ⟨S, hS, hE⟩ := computedFlow_spec (whole_good hxy hab) sf hs reverse
  obtain ⟨S', hS', hE'⟩ := computedFlow_spec (parts_good hxy h1 h2) sf' hs reverse
  rw [← nodes_unique hn, ← times_unique ht] at hE
  rw [← nodes_unique hn', ← times_unique ht'] at hE'
  obtain ⟨P, hP, -⟩ := C127_walk ht [x, y] scale reverse (a := a) (b := b) rfl rfl
  have hP' := walk_same (parts_same h1 h2) hP
  have s1 := flowCov_sum ht (P := P) (nodes := [x, y]) (scale := scale) (reverse := reverse) hP first
  have s2 := flowCov_sum ht' (P := P) (nodes := [x, y]) (scale := scale) (reverse := reverse) hP' first
  have e1 : form 2 S first = form 2 (flowCov (whole x y a b) [x, y] [a, b] scale reverse) first := form_congr hE first
  have e2 : form 2 S' first = form 2 (flowCov (parts x y a m b) [x, y] [a, m, b] scale reverse) first := form_congr hE' first
  have hev : (fun _ : Nat => 1 / (([x, y] : List L).length : ℝ)) = everywhere 2 := rfl
  rw [hev] at s1 s2
  have s1 : form 2 S first = _ := e1.trans s1
  have s2 : form 2 S' first = _ := e2.trans s2
  rw [form_first] at s1 s2
  refine ⟨S, S', hS, hS', ?_⟩
  have hd : 0 < b - a := sub_pos.2 hab
  have v1 : S 0 0 = along 2 (everywhere 2) first P (if reverse then a else b) := by
    rw [s1]
    have : lowerSum (at' [a, b]) 1 reverse (along 2 (everywhere 2) first P) / (b - a) =
        along 2 (everywhere 2) first P (if reverse then a else b) := by
      unfold lowerSum
      rw [sum_range_one]
      show (b - a) * along 2 (everywhere 2) first P (if reverse then a else b) / (b - a) = _
      rw [mul_div_assoc, mul_div_cancel₀ _ hd.ne']
    exact this
  have v2 : S' 0 0 = ((m - a) * along 2 (everywhere 2) first P (if reverse then a else m) +
      (b - m) * along 2 (everywhere 2) first P (if reverse then m else b)) / (b - a) := by
    rw [s2]
    have : lowerSum (at' [a, m, b]) 2 reverse (along 2 (everywhere 2) first P) =
        (m - a) * along 2 (everywhere 2) first P (if reverse then a else m) +
        (b - m) * along 2 (everywhere 2) first P (if reverse then m else b) := by
      unfold lowerSum
      rw [sum_range_succ, sum_range_one]
      rfl
    rw [← this]
    rfl
  have hm : ∀ t t' : ℝ, t < t' → Real.exp (-(4 * (t' / scale))) < Real.exp (-(4 * (t / scale))) := by
    intro t t' h
    rw [Real.exp_lt_exp]
    have := (div_lt_div_iff_of_pos_right hs).2 h
    linarith
  constructor
  · rw [v1, along_pair hxy hab hP (by split <;> linarith) (by split <;> linarith)]
    cases reverse <;> simp
  · rw [v2, v1, lt_div_iff₀ hd]
    cases reverse
    · simp only [Bool.false_eq_true, if_false]
      rw [along_pair hxy hab hP h1.le h2.le, along_pair hxy hab hP hab.le le_rfl]
      simp only [Bool.false_eq_true, if_false]
      have := mul_lt_mul_of_pos_left (hm (m - a) (b - a) (by linarith)) (sub_pos.2 h1)
      nlinarith [this]
    · simp only [if_true]
      rw [along_pair hxy hab hP h1.le h2.le, along_pair hxy hab hP le_rfl hab.le]
      simp only [if_true]
      have := mul_lt_mul_of_pos_left (hm (b - m) (b - a) (by linarith)) (sub_pos.2 h2)
      nlinarith [this]

/-- The hypotheses of `C127_average`, `C127_stability` and `C128_cut_partial`. -/
example : GoodContacts (whole 0 1 0 2 : List (Event ℕ ℝ)) ∧ GoodContacts (parts 0 1 0 1 2 : List (Event ℕ ℝ)) ∧
    NodesOf (whole 0 1 0 2 : List (Event ℕ ℝ)) [0, 1] ∧ NodesOf (parts 0 1 0 1 2 : List (Event ℕ ℝ)) [0, 1] ∧
    SameMoments (whole 0 1 0 2 : List (Event ℕ ℝ)) (parts 0 1 0 1 2) [0, 1] ∧
    TimesOf (whole 0 1 0 2 : List (Event ℕ ℝ)) [0, 2] ∧ TimesOf (parts 0 1 0 1 2 : List (Event ℕ ℝ)) [0, 1, 2] ∧
    (∀ k, k + 1 < ([0, 1, 2] : List ℝ).length → ([0, 1, 2] : List ℝ).getD (k + 1) 0 - ([0, 1, 2] : List ℝ).getD k 0 ≤ 1) ∧
    ∃ P, ContactWalk (parts 0 1 0 1 2 : List (Event ℕ ℝ)) [0, 1] 3 0 2 true P := by
  refine ⟨whole_good (by norm_num) (by norm_num), parts_good (by norm_num) (by norm_num) (by norm_num),
    whole_nodes (by norm_num), parts_nodes (by norm_num), parts_same (by norm_num) (by norm_num),
    whole_times (by norm_num), parts_times (by norm_num) (by norm_num), ?_, ?_⟩
  · intro k hk
    have : k = 0 ∨ k = 1 := by simp at hk; omega
    rcases this with rfl | rfl <;> norm_num
  · obtain ⟨P, hP, -⟩ := C127_walk (parts_times (x := 0) (y := 1) (a := 0) (m := 1) (b := 2) (by norm_num) (by norm_num)) [0, 1] 3 true
      (a := 0) (b := 2) rfl rfl
    exact ⟨P, hP⟩

end Verif.Average
