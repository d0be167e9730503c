import Verif.DenseMem.Round
import Verif.DenseMem.Indicator
import Verif.Partition.Model
import Mathlib.Tactic.IntervalCases

/-!
# C94: the compiled dense routines and their numpy versions
-/

set_option linter.dupNamespace false
set_option linter.unusedSectionVars false

namespace Verif.DenseMem

open Verif.Memory

variable {K : Type} [Field K] [LinearOrder K] [IsStrictOrderedRing K]

/-! ## Gains -/

/-- **C94**: on a square matrix of `n` nodes, for a node and a list of nodes numbered below `n`, the
gain and the loss are computed without a stray access, with and without the compiled module, and
both give the sum of the entries between the node and the list in both directions, with the diagonal
entry added. -/
theorem C94_gains (S : Mat K) (h : S.WF) (n : Nat) (hr : S.nr = n) (hc : S.nc = n) (k : Nat) (hk : k < n)
    (ix : List Nat) (hix : ∀ a ∈ ix, a < n) :
    let sum := (ix.map fun a => S.val k a + S.val a k).sum
    let cast := ix.map fun a : Nat => (a : Int)
    stoRun S k cast = .ok (sum + S.val k k) ∧ npSto S k cast = .ok (sum + S.val k k) ∧
    soutRun S k cast = .ok (S.val k k - sum) ∧ npSout S k cast = .ok (S.val k k - sum) := by
  intro sum cast
  subst hr
  have hk' : Inside S.nr (k : Int) := ⟨by omega, by omega⟩
  have hix' : ∀ a ∈ cast, Inside S.nr a := by
    intro a ha
    obtain ⟨b, hb, rfl⟩ := List.mem_map.1 ha
    have := hix b hb
    exact ⟨by omega, by omega⟩
  have hacc : ∀ a, Inside S.nr a → Accepted S.nr a := fun a ha => ⟨by have := ha.1; omega, ha.2⟩
  have hs : (cast.map fun a => S.val (k : Int).toNat a.toNat + S.val a.toNat (k : Int).toNat).sum = sum := by
    simp only [cast, sum, List.map_map]
    rfl
  have hs2 : (cast.map fun a => S.val (wrap S.nr (k : Int)) (wrap S.nr a) +
      S.val (wrap S.nr a) (wrap S.nr (k : Int))).sum = sum := by
    rw [← hs]
    congr 1
    apply List.map_congr_left
    intro a ha
    rw [wrap_inside hk', wrap_inside (hix' a ha)]
  have hn := npSum_ok S hc k (hacc _ hk') cast fun a ha => hacc _ (hix' a ha)
  rw [hs2, wrap_inside hk'] at hn
  refine ⟨?_, hn.1, ?_, hn.2⟩
  · rw [stoRun_ok h hc k hk' cast hix', hs]
    rfl
  · rw [soutRun_ok h hc k hk' cast hix', hs]
    rfl

/-- **C94**: exactly the numbers outside `0 … n-1` are stray for the compiled module, exactly those
outside `-n … n-1` raise an `IndexError` without it. -/
theorem C94_gains_stray_iff (S : Mat K) (h : S.WF) (n : Nat) (hr : S.nr = n) (hc : S.nc = n) (k : Int)
    (ix : List Int) :
    (stoRun S k ix = .error .read ↔ ∃ a ∈ k :: ix, ¬ (0 ≤ a ∧ a < n)) ∧
    (soutRun S k ix = .error .read ↔ ∃ a ∈ k :: ix, ¬ (0 ≤ a ∧ a < n)) ∧
    (npSto S k ix = .error .indexError ↔ ∃ a ∈ k :: ix, ¬ (-(n : Int) ≤ a ∧ a < n)) ∧
    (npSout S k ix = .error .indexError ↔ ∃ a ∈ k :: ix, ¬ (-(n : Int) ≤ a ∧ a < n)) := by
  subst hr
  have conv : ∀ (P : Int → Prop), (∃ a ∈ k :: ix, ¬ P a) ↔ ¬ (P k ∧ ∀ a ∈ ix, P a) := by
    intro P
    rw [← List.forall_mem_cons (p := P)]
    push Not
    rfl
  rw [conv (fun a => 0 ≤ a ∧ a < S.nr), conv (fun a => -(S.nr : Int) ≤ a ∧ a < S.nr)]
  refine ⟨⟨?_, stoRun_err h hc k ix⟩, ⟨?_, soutRun_err h hc k ix⟩, ⟨?_, fun hb => (npSum_err S hc k ix hb).1⟩,
    ⟨?_, fun hb => (npSum_err S hc k ix hb).2⟩⟩
  · intro he hin
    rw [stoRun_ok h hc k hin.1 ix hin.2] at he
    cases he
  · intro he hin
    rw [soutRun_ok h hc k hin.1 ix hin.2] at he
    cases he
  · intro he hin
    rw [(npSum_ok S hc k hin.1 ix hin.2).1] at he
    cases he
  · intro he hin
    rw [(npSum_ok S hc k hin.1 ix hin.2).2] at he
    cases he

/-- A matrix with three nodes. -/
def exS : Mat ℚ := ⟨3, 3, [[1, 2, 3], [4, 5, 6], [7, 8, 9]]⟩

theorem exS_wf : exS.WF := ⟨rfl, by intro r hr; simp [exS] at hr; rcases hr with rfl | rfl | rfl <;> rfl⟩

example : stoRun exS (1 : Nat) ([0, 2].map fun a : Nat => (a : Int)) = .ok 25 ∧
    soutRun exS (1 : Nat) ([0, 1, 2].map fun a : Nat => (a : Int)) = .ok (-25) ∧
    npSto exS 1 [0, -1] = .ok 25 ∧ stoRun exS 1 [0, -1] = .error .read ∧ stoRun exS 1 [3] = .error .read := by
  refine ⟨?_, ?_, ?_, ?_, ?_⟩
  · rw [(C94_gains exS exS_wf 3 rfl rfl 1 (by omega) [0, 2] (by simp)).1]; congr 1; norm_num [exS, Mat.val]
  · rw [(C94_gains exS exS_wf 3 rfl rfl 1 (by omega) [0, 1, 2] (by simp)).2.2.1]; congr 1; norm_num [exS, Mat.val]
  · decide +kernel
  · exact ((C94_gains_stray_iff exS exS_wf 3 rfl rfl 1 [0, -1]).1).2 ⟨-1, by simp, by omega⟩
  · exact ((C94_gains_stray_iff exS exS_wf 3 rfl rfl 1 [3]).1).2 ⟨3, by simp, by omega⟩

/-- **C94** (violated): a partition may be built from clusters with node numbers that do not exist.
For every matrix, every node and every such cluster the compiled module then reads outside of
the matrix. -/
theorem C94_unknown_node_violated (S : Mat K) (h : S.WF) (n : Nat) (hr : S.nr = n) (hc : S.nc = n)
    (cl : List (Finset Nat)) (c : Finset Nat) (hcl : c ∈ cl) (v : Nat) (hv : v ∈ c) (hvn : n ≤ v)
    (it : List Nat) (hit : it.toFinset = c) (k : Nat) :
    (∃ p, Partition.mk' n (.clusterList cl) false = .ok p ∧ c ∈ p.clusters) ∧
    stoRun S k (it.map fun a : Nat => (a : Int)) = .error .read ∧
    soutRun S k (it.map fun a : Nat => (a : Int)) = .error .read := by
  have hb : ∃ a ∈ (k : Int) :: it.map (fun a : Nat => (a : Int)), ¬ (0 ≤ a ∧ a < n) := by
    refine ⟨(v : Int), ?_, by omega⟩
    apply List.mem_cons_of_mem
    apply List.mem_map.2
    refine ⟨v, ?_, rfl⟩
    rw [← List.mem_toFinset, hit]
    exact hv
  have hst := C94_gains_stray_iff S h n hr hc k (it.map fun a : Nat => (a : Int))
  refine ⟨?_, hst.1.2 hb, hst.2.1.2 hb⟩
  refine ⟨_, rfl, ?_⟩
  show c ∈ List.filter _ _
  rw [List.mem_filter]
  exact ⟨hcl, by simpa using Finset.card_pos.2 ⟨v, hv⟩⟩

example : stoRun exS (0 : Nat) ([2, 7].map fun a : Nat => (a : Int)) = .error .read :=
  (C94_unknown_node_violated exS exS_wf 3 rfl rfl [{0, 1}, {2, 7}] {2, 7} (by simp) 7 (by simp) (by omega)
    [2, 7] (by decide) 0).2.1

/-! ## The autocovariance matrix -/

/-- **C94**: the compiled computation of `S[i,j] = p1[i]*T[i,j] - p1[i]*p2[j]` stays inside the arrays
exactly if the distributions are long enough, and then returns these entries in the shape of `T`;
otherwise it reads outside. -/
theorem C94_matrix_inside_iff (p1 p2 : List K) (T : Mat K) (hT : T.WF) :
    ((∃ S, computeSRun p1 p2 T = .ok S) ↔
      T.nr = 0 ∨ T.nc = 0 ∨ (T.nr ≤ p1.length ∧ T.nc ≤ p2.length)) ∧
    (∀ S, computeSRun p1 p2 T = .ok S → S.WF ∧ S.nr = T.nr ∧ S.nc = T.nc ∧ ∀ i j, i < T.nr → j < T.nc →
      ∃ a b, p1[i]? = some a ∧ p2[j]? = some b ∧ S.val i j = a * T.val i j - a * b) ∧
    (∀ e, computeSRun p1 p2 T = .error e → e = .read) := by
  by_cases hok : T.nr = 0 ∨ T.nc = 0 ∨ (T.nr ≤ p1.length ∧ T.nc ≤ p2.length)
  · have h1 : T.nc = 0 ∨ T.nr ≤ p1.length := by
      rcases hok with h | h | h
      · right; omega
      · left; exact h
      · right; exact h.1
    have h2 : T.nr = 0 ∨ T.nc ≤ p2.length := by
      rcases hok with h | h | h
      · left; exact h
      · right; omega
      · right; exact h.2
    have e := computeSRun_ok (p1 := p1) (p2 := p2) hT h1 h2
    refine ⟨⟨fun _ => hok, fun _ => ⟨_, e⟩⟩, ?_, ?_⟩
    · intro S hS
      rw [e] at hS
      injection hS with hS
      subst hS
      refine ⟨ofFn_wf _ _ _, rfl, rfl, ?_⟩
      intro i j hi hj
      have l1 : i < p1.length := by rcases h1 with h | h <;> omega
      have l2 : j < p2.length := by rcases h2 with h | h <;> omega
      refine ⟨p1[i], p2[j], by simp [l1], by simp [l2], ?_⟩
      rw [ofFn_val _ _ _ _ _ hi hj]
      simp [l1, l2]
    · intro er her
      rw [e] at her
      cases her
  · push Not at hok
    obtain ⟨hr, hc, hl⟩ := hok
    have e := computeSRun_err (p1 := p1) (p2 := p2) hT (by omega) (by omega) (by
      by_contra hb
      push Not at hb
      exact absurd (hl hb.1) (by omega))
    refine ⟨⟨?_, ?_⟩, ?_, ?_⟩
    · rintro ⟨S, hS⟩
      rw [e] at hS
      cases hS
    · rintro (h | h | h)
      · exact absurd h hr
      · exact absurd h hc
      · exact absurd (hl h.1) (by omega)
    · intro S hS
      rw [e] at hS
      cases hS
    · intro er her
      rw [e] at her
      injection her with her
      exact her.symm

/-- A stochastic matrix. -/
def exT : Mat ℚ := ⟨2, 2, [[1/2, 1/2], [1, 0]]⟩

theorem exT_wf : exT.WF := ⟨rfl, by intro r hr; simp [exT] at hr; rcases hr with rfl | rfl <;> rfl⟩

example : ∃ S, computeSRun [1/2, 1/2] [3/4, 1/4] exT = .ok S ∧ S.val 0 1 = 1/8 := by
  obtain ⟨S, hS⟩ := (C94_matrix_inside_iff [1/2, 1/2] [3/4, 1/4] exT exT_wf).1.2 (Or.inr (Or.inr (by decide)))
  refine ⟨S, hS, ?_⟩
  obtain ⟨_, _, _, h⟩ := (C94_matrix_inside_iff [1/2, 1/2] [3/4, 1/4] exT exT_wf).2.1 S hS
  obtain ⟨a, b, ha, hb, hv⟩ := h 0 1 (by decide) (by decide)
  have ha' : a = 1/2 := by simpa using ha.symm
  have hb' : b = 1/4 := by simpa using hb.symm
  rw [hv, ha', hb']
  norm_num [exT, Mat.val]

/-- **C94**: with distributions of the lengths of the axes the compiled module and numpy give the same
matrix. -/
theorem C94_matrix_same (p1 p2 : List K) (T : Mat K) (hT : T.WF) (h1 : p1.length = T.nr) (h2 : p2.length = T.nc) :
    ∃ S, computeSRun p1 p2 T = .ok S ∧ npS p1 p2 T = .ok S := by
  refine ⟨_, computeSRun_ok hT (Or.inr (le_of_eq h1.symm)) (Or.inr (le_of_eq h2.symm)), ?_⟩
  unfold npS
  rw [if_neg (by simpa using h1), if_pos h2.symm]

/-- **C94** (part): if the second distribution is left to the constructor, a dense clustering of a
square matrix is the same with and without the compiled module, and no access is stray.  Missing:
with a second distribution given the lengths are not tested, see `C94_lengths_violated`. -/
theorem C94_constructor_partial (T : Mat K) (hT : T.WF) (hsq : T.nr = T.nc) (p1 : Option (List K)) :
    initS true T p1 none = initS false T p1 none ∧ initS true T p1 none ≠ .error .stray := by
  unfold initS
  have hshape : ¬ ¬ (T.nr = T.nc ∨ T.nr = 1 ∨ T.nc = 1) := by simp [hsq]
  simp only [if_neg hshape]
  by_cases hrow : T.rows.all rowOk = true
  · simp only [if_neg (not_not.2 hrow)]
    unfold p2Of
    by_cases hl : (p1Of T p1).length ≠ T.nr
    · simp only [if_pos hl]
      exact ⟨trivial, nofun⟩
    · simp only [if_neg hl]
      obtain ⟨S, e1, e2⟩ := C94_matrix_same (p1Of T p1) ((List.range T.nc).map fun j =>
        ((List.range T.nr).map fun i => (p1Of T p1).getD i 0 * T.val i j).sum) T hT (by simpa using hl) (by simp)
      simp only [e1, e2, if_true, Bool.false_eq_true, if_false]
      exact ⟨trivial, nofun⟩
  · simp only [if_pos hrow]
    exact ⟨trivial, nofun⟩

/-- **C94** (violated): for every stochastic matrix of `n > 0` nodes and every two distributions that are
given, the compiled constructor reads outside of an array exactly if one of them is too short, and
accepts those that are too long; the version without the compiled module rejects every first
distribution of another length, but repeats a second one of length 1. -/
theorem C94_lengths_violated (T : Mat K) (hT : T.WF) (n : Nat) (hn : 0 < n) (hr : T.nr = n) (hc : T.nc = n)
    (hrow : ∀ r ∈ T.rows, r.sum = 1 ∨ r.sum = 0) (p1 p2 : List K) :
    (initS true T (some p1) (some p2) = .error .stray ↔ p1.length < n ∨ p2.length < n) ∧
    ((n ≤ p1.length ∧ n ≤ p2.length) → ∃ S, initS true T (some p1) (some p2) = .ok S) ∧
    (p1.length ≠ n → initS false T (some p1) (some p2) = .error (.raised .valueError)) ∧
    (p1.length = n → p2.length = 1 → ∃ S, initS false T (some p1) (some p2) = .ok S ∧
      ∀ i j, i < n → j < n → S.val i j = p1.getD i 0 * T.val i j - p1.getD i 0 * p2.getD 0 0) := by
  have hall : T.rows.all rowOk = true := by
    rw [List.all_eq_true]
    intro r hr
    unfold rowOk Autocov.allclose
    rcases hrow r hr with h | h
    · simp [h]
      left
      positivity
    · simp [h]
  have hinit : ∀ b, initS b T (some p1) (some p2) = if b then
        match computeSRun p1 p2 T with
        | .ok S => .ok S
        | .error _ => .error .stray
      else
        match npS p1 p2 T with
        | .ok S => .ok S
        | .error e => .error (.raised e) := by
    intro b
    unfold initS
    rw [if_neg (by simp [hr, hc]), if_neg (by simpa using hall)]
    rfl
  rw [hinit, hinit]
  simp only [if_true, Bool.false_eq_true, if_false]
  refine ⟨⟨?_, ?_⟩, ?_, ?_, ?_⟩
  · intro h
    by_contra hb
    push Not at hb
    rw [computeSRun_ok (p1 := p1) (p2 := p2) hT (Or.inr (by omega)) (Or.inr (by omega))] at h
    cases h
  · intro h
    rw [computeSRun_err (p1 := p1) (p2 := p2) hT (by omega) (by omega) (by omega)]
  · intro h
    rw [computeSRun_ok (p1 := p1) (p2 := p2) hT (Or.inr (by omega)) (Or.inr (by omega))]
    exact ⟨_, rfl⟩
  · intro h
    unfold npS
    rw [if_pos (by rw [hr]; exact h)]
  · intro h1 h2
    unfold npS
    rw [if_neg (by simp [hr, h1])]
    by_cases h : T.nc = p2.length
    · rw [if_pos h]
      refine ⟨_, rfl, ?_⟩
      intro i j hi hj
      rw [ofFn_val _ _ _ _ _ (by omega) (by omega)]
      obtain rfl : j = 0 := by omega
      rfl
    · rw [if_neg h, if_pos h2]
      refine ⟨_, rfl, ?_⟩
      intro i j hi hj
      rw [ofFn_val _ _ _ _ _ (by omega) (by omega)]

example : initS true exT (some [1]) (some [1/2, 1/2]) = .error .stray ∧
    initS true exT (some [1/2, 1/2]) (some [1]) = .error .stray ∧
    initS false exT (some [1]) (some [1/2, 1/2]) = .error (.raised .valueError) := by
  have hrow : ∀ r ∈ exT.rows, r.sum = 1 ∨ r.sum = 0 := by
    intro r hr
    simp only [exT, List.mem_cons, List.not_mem_nil, or_false] at hr
    rcases hr with rfl | rfl <;> left <;> norm_num
  refine ⟨?_, ?_, ?_⟩
  · exact (C94_lengths_violated exT exT_wf 2 (by omega) rfl rfl hrow [1] [1/2, 1/2]).1.2 (Or.inl (by simp))
  · exact (C94_lengths_violated exT exT_wf 2 (by omega) rfl rfl hrow [1/2, 1/2] [1]).1.2 (Or.inr (by simp))
  · exact (C94_lengths_violated exT exT_wf 2 (by omega) rfl rfl hrow [1] [1/2, 1/2]).2.2.1 (by simp)

/-- **C94**: the matrix of a step forward and back ends well exactly if the arrays are long enough and
every node that is summed over has a probability other than zero; its entries are then
`p0[i] p0[j] (∑ₖ T[i,k] T[j,k] / pt[k] - 1)`, so it is symmetric. -/
theorem C94_round_trip (p0 pt : List K) (T : Mat K) (hT : T.WF) :
    ((∃ S, computeS0t0Run p0 pt T = .ok S) ↔
      T.nr = 0 ∨ (T.nr ≤ T.nc ∧ T.nr ≤ p0.length ∧ T.nr ≤ pt.length ∧ ∀ k < T.nr, pt.getD k 0 ≠ 0)) ∧
    ∀ S, computeS0t0Run p0 pt T = .ok S → S.nr = T.nr ∧ S.nc = T.nr ∧ ∀ i j, i < T.nr → j < T.nr →
      S.val i j = p0.getD i 0 * p0.getD j 0 *
        ((∑ k ∈ Finset.range T.nr, T.val i k * T.val j k / pt.getD k 0) - 1) ∧ S.val i j = S.val j i := by
  have hok : ∀ (hc : T.nr = 0 ∨ (T.nr ≤ T.nc ∧ T.nr ≤ p0.length ∧ T.nr ≤ pt.length ∧ ∀ k < T.nr, pt.getD k 0 ≠ 0)),
      computeS0t0Run p0 pt T = .ok (Mat.ofFn T.nr T.nr fun i j =>
        roundSum p0 pt T T.nr i j - p0.getD i 0 * p0.getD j 0) := by
    intro hc
    apply round_ok hT
    · rcases hc with h | h; exacts [by omega, h.1]
    · rcases hc with h | h; exacts [by omega, h.2.1]
    · rcases hc with h | h; exacts [by omega, h.2.2.1]
    · intro k hk; rcases hc with h | h; exacts [by omega, h.2.2.2 k hk]
  refine ⟨⟨?_, fun hc => ⟨_, hok hc⟩⟩, ?_⟩
  · rintro ⟨S, hS⟩
    by_cases h0 : T.nr = 0
    · exact Or.inl h0
    · exact Or.inr (round_conv hT S hS (by omega))
  · intro S hS
    have hc : T.nr = 0 ∨ (T.nr ≤ T.nc ∧ T.nr ≤ p0.length ∧ T.nr ≤ pt.length ∧ ∀ k < T.nr, pt.getD k 0 ≠ 0) := by
      by_cases h0 : T.nr = 0
      · exact Or.inl h0
      · exact Or.inr (round_conv hT S hS (by omega))
    rw [hok hc] at hS
    injection hS with hS
    subst hS
    have hval : ∀ i j, i < T.nr → j < T.nr → (Mat.ofFn T.nr T.nr fun i j =>
        roundSum p0 pt T T.nr i j - p0.getD i 0 * p0.getD j 0).val i j = p0.getD i 0 * p0.getD j 0 *
        ((∑ k ∈ Finset.range T.nr, T.val i k * T.val j k / pt.getD k 0) - 1) := by
      intro i j hi hj
      rw [ofFn_val _ _ _ _ _ hi hj, mul_sub, mul_one, Finset.mul_sum]
      unfold roundSum
      congr 1
      apply Finset.sum_congr rfl
      intro k _
      ring
    refine ⟨rfl, rfl, fun i j hi hj => ⟨hval i j hi hj, ?_⟩⟩
    rw [hval i j hi hj, hval j i hj hi, mul_comm (p0.getD i 0)]
    congr 2
    apply Finset.sum_congr rfl
    intro k _
    rw [mul_comm (T.val i k)]

example : (∃ S, computeS0t0Run [1/2, 1/2] [3/4, 1/4] exT = .ok S) ∧
    ¬ ∃ S, computeS0t0Run [1/2, 1/2] [1, 0] exT = .ok S := by
  constructor
  · rw [(C94_round_trip _ _ exT exT_wf).1]
    right
    refine ⟨by decide, by simp [exT], by simp [exT], ?_⟩
    intro k hk
    have hk' : k < 2 := hk
    interval_cases k <;> norm_num
  · rw [(C94_round_trip _ _ exT exT_wf).1]
    rintro (h | h)
    · simp [exT] at h
    · exact h.2.2.2 1 (by simp [exT]) (by simp)

/-! ## Measures -/

/-- **C94**: with the numbers of clusters given by the caller, the compiled mutual information writes
outside of its arrays exactly if one of them is too small; otherwise it returns the mutual
information divided by the larger entropy, whatever room is left, or divides by zero if both
entropies are zero. -/
theorem C94_mutual_information (lg : K → K) (c1 c2 : List (Finset Nat)) (N n1 n2 : Nat) (hN : 0 < N) :
    (nmiRun lg c1 c2 N n1 n2 = .error .write ↔ n1 < c1.length ∨ n2 < c2.length) ∧
    (c1.length ≤ n1 → c2.length ≤ n2 →
      let freq (l : List Nat) : List K := l.map fun m : Nat => (m : K) / (N : K)
      let h (l : List Nat) : K := -((freq l).map fun x => if x = 0 then 0 else x * lg x).sum
      let h1 := h (c1.map Finset.card)
      let h2 := h (c2.map Finset.card)
      let h12 := h (c1.flatMap fun a => c2.map fun b => (a ∩ b).card)
      nmiRun lg c1 c2 N n1 n2 =
        if max h1 h2 = 0 then .error .zeroDivision else .ok ((h1 + h2 - h12) / max h1 h2)) := by
  have hN' : N ≠ 0 := by omega
  refine ⟨⟨?_, nmiRun_err lg c1 c2 N n1 n2 hN'⟩, ?_⟩
  · intro h
    by_contra hb
    push Not at hb
    rw [nmiRun_ok lg c1 c2 N n1 n2 hN' hb.1 hb.2] at h
    split at h <;> cases h
  · intro l1 l2 freq h h1 h2 h12
    rw [nmiRun_ok lg c1 c2 N n1 n2 hN' l1 l2]
    have e1 : ∀ c : List (Finset Nat), entropy lg (sizes c N) = h (c.map Finset.card) := by
      intro c
      simp only [entropy, sizes, h, freq, List.map_map]
      rfl
    have e2 : entropy lg (interSizes c1 c2 N) = h12 := by
      simp only [entropy, interSizes, h12, h, freq, List.map_flatMap, List.map_map]
      rfl
    rw [e1, e1, e2]

/-- **C94**: called by `norm_mutual_information` with the numbers it passes, the compiled routine makes no
stray access and returns the value of C43. -/
theorem C94_mutual_information_call (c1 c2 : List (Finset Nat)) (h1 : c1 ≠ []) (h2 : c2 ≠ []) (v : ℝ) :
    nmiRun (Real.logb 2) c1 c2 (c1.map Finset.card).sum c1.length c2.length = .ok v ↔
      Info.nmi (.clusters c1) (.clusters c2) = .ok v := by
  have hs : ∀ p : List ℝ, Info.shannon p = entropy (Real.logb 2) p := by
    intro p
    have := entropy_foldl (Real.logb 2) p 0
    rw [zero_add] at this
    exact this
  unfold Info.nmi
  simp only [Info.Arg.toList]
  rw [if_neg (by simp [h1, h2])]
  by_cases hN : (c1.map Finset.card).sum = 0
  · rw [hN, nmiRun_zero]
    constructor
    · intro h; cases h
    · intro h
      rw [if_pos] at h
      · cases h
      · rw [hs, hs]
        simp [entropy]
  · rw [nmiRun_ok _ c1 c2 _ _ _ hN (le_refl _) (le_refl _), hs, hs, hs]
    unfold sizes interSizes
    split
    · constructor <;> (intro h; cases h)
    · constructor
      · intro h
        injection h with h
        rw [← h]
      · intro h
        injection h with h
        rw [← h]

example (lg : ℚ → ℚ) : nmiRun lg [{0, 1}, {2}] [{0}, {1, 2}] 3 2 1 = .error .write :=
  (C94_mutual_information lg _ _ 3 2 1 (by omega)).1.2 (Or.inr (by simp))

/-- **C94**: the variation of information on indicator matrices writes outside of its arrays exactly if
one of the clusterings lists more than `N` nodes; otherwise (for `N` of at least two) it returns the double sum over the
pairs of clusters that have nodes in common. -/
theorem C94_indicator (lg : K → K) (cs1 cs2 : List (List Int)) (N : Nat) :
    (nviMatRun lg cs1 cs2 N = .error .write ↔
      N < (cs1.map List.length).sum ∨ N < (cs2.map List.length).sum) ∧
    ((∀ a ∈ cs1, a.Nodup) → 2 ≤ N → (cs1.map List.length).sum ≤ N → (cs2.map List.length).sum ≤ N →
      nviMatRun lg cs1 cs2 N =
        .ok (-(cs1.map fun a => (cs2.map fun b =>
          let m : Nat := (a.toFinset ∩ b.toFinset).card
          if 0 < m then (m : K) * lg ((m : K) ^ 2 / ((a.length : K) * (b.length : K))) else 0).sum).sum /
          ((N : K) * lg (N : K)))) := by
  rw [← List.length_flatten, ← List.length_flatten]
  refine ⟨⟨?_, nviMatRun_err lg cs1 cs2 N⟩, ?_⟩
  · intro h
    by_contra hb
    push Not at hb
    rw [nviMatRun_ok lg cs1 cs2 N hb.1 hb.2] at h
    cases h
  · intro hnd _ h1 h2
    rw [nviMatRun_ok lg cs1 cs2 N h1 h2]
    have e : (cs1.map fun a => (cs2.map fun b => matTerm lg a b).sum) = cs1.map fun a => (cs2.map fun b =>
          let m : Nat := (a.toFinset ∩ b.toFinset).card
          if 0 < m then (m : K) * lg ((m : K) ^ 2 / ((a.length : K) * (b.length : K))) else 0).sum := by
      apply List.map_congr_left
      intro a ha
      congr 1
      apply List.map_congr_left
      intro b _
      unfold matTerm
      rw [Info.indices_spec (hnd a ha)]
    rw [e]

example (lg : ℚ → ℚ) : nviMatRun lg [[0, 1], [2]] [[0], [2, 1, 3]] 3 = .error .write ∧
    ∃ v, nviMatRun lg [[1, 0], [2]] [[0], [2, 1]] 3 = .ok v :=
  ⟨(C94_indicator lg _ _ 3).1.2 (Or.inr (by simp)),
    ⟨_, (C94_indicator lg _ _ 3).2 (by simp) (by omega) (by simp) (by simp)⟩⟩

end Verif.DenseMem
