import Verif.DenseMem.Gains

/-!
# The matrix of forward and backward steps
-/

set_option linter.dupNamespace false
set_option linter.unusedSectionVars false

namespace Verif.DenseMem

open Verif.Memory

variable {K : Type} [Field K] [LinearOrder K] [IsStrictOrderedRing K]

/-- The sum over the first `m` nodes reached at the end of the forward step. -/
def roundSum (p0 pt : List K) (T : Mat K) (m i j : Nat) : K :=
  ∑ k ∈ Finset.range m, p0.getD i 0 * T.val i k * (1 / pt.getD k 0) * T.val j k * p0.getD j 0

/-- The state of the double loop before `(i, j)`. -/
structure RInv (p0 pt : List K) (T : Mat K) (i j : Nat) (S : Mat K) : Prop where
  wf : S.WF
  nr : S.nr = T.nr
  nc : S.nc = T.nr
  val : ∀ a b, S.val a b = if a < i ∧ b < T.nr ∨ a = i ∧ b < j then
    roundSum p0 pt T T.nr a b - p0.getD a 0 * p0.getD b 0 else 0

/-- The state inside the loop over `k`. -/
structure RInv' (p0 pt : List K) (T : Mat K) (i j k : Nat) (S : Mat K) : Prop where
  wf : S.WF
  nr : S.nr = T.nr
  nc : S.nc = T.nr
  val : ∀ a b, S.val a b = if a = i ∧ b = j then roundSum p0 pt T k a b else
    if a < i ∧ b < T.nr ∨ a = i ∧ b < j then
    roundSum p0 pt T T.nr a b - p0.getD a 0 * p0.getD b 0 else 0

theorem R_step {p0 pt : List K} {T : Mat K} (hT : T.WF) (hc : T.nr ≤ T.nc) (h0 : T.nr ≤ p0.length)
    (ht : T.nr ≤ pt.length) (hz : ∀ k < T.nr, pt.getD k 0 ≠ 0) (i j k : Nat) (hi : i < T.nr) (hj : j < T.nr)
    (hk : k < T.nr) (S : Mat K) (hS : RInv' p0 pt T i j k S) :
    ∃ S', (do
        let s ← rd2 S (i : Int) (j : Int)
        let a ← rd p0 (i : Int)
        let t ← rd2 T (i : Int) (k : Int)
        let q ← rd pt (k : Int)
        let r ← invRun q
        let u ← rd2 T (j : Int) (k : Int)
        let b ← rd p0 (j : Int)
        wr2 S (i : Int) (j : Int) (s + a * t * r * u * b) : Run (Mat K)) = .ok S' ∧
      RInv' p0 pt T i j (k + 1) S' := by
  have hz' : pt[k]'(by omega) ≠ 0 := by
    have := hz k hk
    simpa [show k < pt.length by omega] using this
  rw [rd2_ok hS.wf i j (hS.nr ▸ hi) (hS.nc ▸ hj), ok_bind, rd_nat p0 i (by omega), ok_bind,
    rd2_ok hT i k hi (by omega), ok_bind, rd_nat pt k (by omega), ok_bind, show invRun pt[k] = .ok (1 / pt[k]) from if_neg hz', ok_bind,
    rd2_ok hT j k hj (by omega), ok_bind, rd_nat p0 j (by omega), ok_bind]
  obtain ⟨S', e, w, r, c, v⟩ := wr2_ok hS.wf i j
    (S.val i j + p0[i] * T.val i k * (1 / pt[k]) * T.val j k * p0[j]) (hS.nr ▸ hi) (hS.nc ▸ hj)
  refine ⟨S', e, w, r.trans hS.nr, c.trans hS.nc, ?_⟩
  intro a b
  rw [v]
  by_cases hab : a = i ∧ b = j
  · obtain ⟨rfl, rfl⟩ := hab
    rw [if_pos ⟨rfl, rfl⟩, hS.val, if_pos ⟨rfl, rfl⟩, if_pos ⟨rfl, rfl⟩]
    unfold roundSum
    rw [Finset.sum_range_succ]
    simp [show a < p0.length by omega, show b < p0.length by omega, show k < pt.length by omega]
  · rw [if_neg hab, hS.val, if_neg hab, if_neg hab]

theorem RInv.start {p0 pt : List K} {T : Mat K} {i j : Nat} {S : Mat K} (h : RInv p0 pt T i j S) :
    RInv' p0 pt T i j 0 S := by
  refine ⟨h.wf, h.nr, h.nc, ?_⟩
  intro a b
  rw [h.val]
  by_cases hab : a = i ∧ b = j
  · rw [if_pos hab, if_neg (by omega)]
    simp [roundSum]
  · rw [if_neg hab]

theorem R_entry {p0 pt : List K} {T : Mat K} (hT : T.WF) (hc : T.nr ≤ T.nc) (h0 : T.nr ≤ p0.length)
    (ht : T.nr ≤ pt.length) (hz : ∀ k < T.nr, pt.getD k 0 ≠ 0) (i j : Nat) (hi : i < T.nr) (hj : j < T.nr)
    (S : Mat K) (hS : RInv p0 pt T i j S) :
    ∃ S', (do
      let S ← loop 0 T.nr S fun S k => do
        let s ← rd2 S (i : Int) (j : Int)
        let a ← rd p0 (i : Int)
        let t ← rd2 T (i : Int) k
        let q ← rd pt k
        let r ← invRun q
        let u ← rd2 T (j : Int) k
        let b ← rd p0 (j : Int)
        wr2 S (i : Int) (j : Int) (s + a * t * r * u * b)
      let s ← rd2 S (i : Int) (j : Int)
      let a ← rd p0 (i : Int)
      let b ← rd p0 (j : Int)
      wr2 S (i : Int) (j : Int) (s - a * b) : Run (Mat K)) = .ok S' ∧ RInv p0 pt T i (j + 1) S' := by
  have key : ∃ S', loop ((0 : Nat) : Int) (T.nr : Int) S (fun S k => (do
        let s ← rd2 S (i : Int) (j : Int)
        let a ← rd p0 (i : Int)
        let t ← rd2 T (i : Int) k
        let q ← rd pt k
        let r ← invRun q
        let u ← rd2 T (j : Int) k
        let b ← rd p0 (j : Int)
        wr2 S (i : Int) (j : Int) (s + a * t * r * u * b) : Run (Mat K))) = .ok S' ∧
        RInv' p0 pt T i j T.nr S' := by
    refine loop_inv 0 T.nr (Nat.zero_le _) _ (fun k S => RInv' p0 pt T i j k S) ?_ S hS.start
    intro k _ hk S hS
    exact R_step hT hc h0 ht hz i j k hi hj hk S hS
  obtain ⟨S1, e1, h1⟩ := key
  have e1' := e1
  rw [Nat.cast_zero] at e1'
  rw [e1', ok_bind, rd2_ok h1.wf i j (h1.nr ▸ hi) (h1.nc ▸ hj), ok_bind, rd_nat p0 i (by omega), ok_bind,
    rd_nat p0 j (by omega), ok_bind]
  obtain ⟨S', e, w, r, c, v⟩ := wr2_ok h1.wf i j (S1.val i j - p0[i] * p0[j]) (h1.nr ▸ hi) (h1.nc ▸ hj)
  refine ⟨S', e, w, r.trans h1.nr, c.trans h1.nc, ?_⟩
  intro a b
  rw [v]
  by_cases hab : a = i ∧ b = j
  · obtain ⟨rfl, rfl⟩ := hab
    rw [if_pos ⟨rfl, rfl⟩, h1.val, if_pos ⟨rfl, rfl⟩, if_pos (by omega)]
    simp [show a < p0.length by omega, show b < p0.length by omega]
  · rw [if_neg hab, h1.val, if_neg hab]
    congr 1
    apply propext
    omega

theorem round_ok {p0 pt : List K} {T : Mat K} (hT : T.WF) (hc : T.nr ≤ T.nc) (h0 : T.nr ≤ p0.length)
    (ht : T.nr ≤ pt.length) (hz : ∀ k < T.nr, pt.getD k 0 ≠ 0) :
    computeS0t0Run p0 pt T =
      .ok (Mat.ofFn T.nr T.nr fun i j => roundSum p0 pt T T.nr i j - p0.getD i 0 * p0.getD j 0) := by
  unfold computeS0t0Run
  have key : ∃ S, loop ((0 : Nat) : Int) (T.nr : Int) (zeros T.nr T.nr) (fun S i =>
    loop ((0 : Nat) : Int) (T.nr : Int) S fun S j => (do
      let S ← loop 0 T.nr S fun S k => do
        let s ← rd2 S i j
        let a ← rd p0 i
        let t ← rd2 T i k
        let q ← rd pt k
        let r ← invRun q
        let u ← rd2 T j k
        let b ← rd p0 j
        wr2 S i j (s + a * t * r * u * b)
      let s ← rd2 S i j
      let a ← rd p0 i
      let b ← rd p0 j
      wr2 S i j (s - a * b) : Run (Mat K))) = .ok S ∧ RInv p0 pt T T.nr 0 S := by
    refine loop_inv 0 T.nr (Nat.zero_le _) _ (fun i S => RInv p0 pt T i 0 S) ?_ _ ?_
    · intro i _ hi S hS
      have : ∃ S', loop ((0 : Nat) : Int) (T.nr : Int) S (fun S j => (do
          let S ← loop 0 T.nr S fun S k => do
            let s ← rd2 S (i : Int) j
            let a ← rd p0 (i : Int)
            let t ← rd2 T (i : Int) k
            let q ← rd pt k
            let r ← invRun q
            let u ← rd2 T j k
            let b ← rd p0 j
            wr2 S (i : Int) j (s + a * t * r * u * b)
          let s ← rd2 S (i : Int) j
          let a ← rd p0 (i : Int)
          let b ← rd p0 j
          wr2 S (i : Int) j (s - a * b) : Run (Mat K))) = .ok S' ∧ RInv p0 pt T i T.nr S' := by
        refine loop_inv 0 T.nr (Nat.zero_le _) _ (fun j S => RInv p0 pt T i j S) ?_ S hS
        intro j _ hj S hS
        exact R_entry hT hc h0 ht hz i j hi hj S hS
      obtain ⟨S', e, h⟩ := this
      refine ⟨S', e, h.wf, h.nr, h.nc, ?_⟩
      intro a b
      rw [h.val]
      congr 1
      apply propext
      omega
    · refine ⟨zeros_wf _ _, rfl, rfl, ?_⟩
      intro a b
      rw [zeros_val, if_neg (by omega)]
  obtain ⟨S, e, h⟩ := key
  refine Eq.trans e ?_
  congr 1
  apply Mat.ext' h.wf (ofFn_wf _ _ _) h.nr h.nc
  intro i j hi hj
  have hi' : i < T.nr := h.nr ▸ hi
  have hj' : j < T.nr := h.nc ▸ hj
  rw [h.val, ofFn_val _ _ _ _ _ hi' hj', if_pos (Or.inl ⟨hi', hj'⟩)]

theorem rd2_ok_lt {M : Mat K} (h : M.WF) {i j : Int} {x : K} (hx : rd2 M i j = .ok x) :
    (0 ≤ i ∧ i < M.nr) ∧ (0 ≤ j ∧ j < M.nc) := by
  by_contra hb
  rw [rd2_err h i j hb] at hx
  cases hx

/-- A run that ends well has met all conditions. -/
theorem round_conv {p0 pt : List K} {T : Mat K} (hT : T.WF) (S : Mat K)
    (hS : computeS0t0Run p0 pt T = .ok S) (hn : 0 < T.nr) :
    T.nr ≤ T.nc ∧ T.nr ≤ p0.length ∧ T.nr ≤ pt.length ∧ ∀ k < T.nr, pt.getD k 0 ≠ 0 := by
  have key : ∀ i k : Nat, i < T.nr → k < T.nr →
      i < p0.length ∧ k < T.nc ∧ k < pt.length ∧ pt.getD k 0 ≠ 0 := by
    intro i k hi hk
    unfold computeS0t0Run at hS
    obtain ⟨s1, s2, h1⟩ := loop_ok_step 0 T.nr _ _ _ hS i (Nat.zero_le _) hi
    obtain ⟨s3, s4, h2⟩ := loop_ok_step 0 T.nr _ _ _ h1 0 (le_refl _) hn
    obtain ⟨S1, h3, _⟩ := (bind_ok_iff _ _ _).1 h2
    obtain ⟨s5, s6, h4⟩ := loop_ok_step 0 T.nr _ _ _ h3 k (Nat.zero_le _) hk
    obtain ⟨s, _, h5⟩ := (bind_ok_iff _ _ _).1 h4
    obtain ⟨a, ha, h6⟩ := (bind_ok_iff _ _ _).1 h5
    obtain ⟨t, ht, h7⟩ := (bind_ok_iff _ _ _).1 h6
    obtain ⟨q, hq, h8⟩ := (bind_ok_iff _ _ _).1 h7
    obtain ⟨r, hr, _⟩ := (bind_ok_iff _ _ _).1 h8
    have e1 := rd_ok_lt ha
    have e2 := rd2_ok_lt hT ht
    have e3 := rd_ok_lt hq
    refine ⟨by omega, by omega, by omega, ?_⟩
    have hkl : k < pt.length := by omega
    rw [rd_nat pt k hkl] at hq
    have hq' : pt[k] = q := by injection hq
    intro hz
    have : q = 0 := by rw [← hq']; simpa [hkl] using hz
    unfold invRun at hr
    rw [if_pos this] at hr
    cases hr
  refine ⟨?_, ?_, ?_, fun k hk => (key 0 k hn hk).2.2.2⟩
  · have := (key 0 (T.nr - 1) hn (by omega)).2.1; omega
  · have := (key (T.nr - 1) 0 (by omega) hn).1; omega
  · have := (key 0 (T.nr - 1) hn (by omega)).2.2.1; omega

end Verif.DenseMem
