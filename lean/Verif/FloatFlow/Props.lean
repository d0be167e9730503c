import Verif.FloatFlow.Lemmas

/-!
# C109: the dense flow integral in machine arithmetic
-/

set_option linter.unusedSectionVars false

namespace Verif.FloatFlow

open Verif.Flow (massAt gram gsum wsum meanCov flowSteps getD_get stored_mean range'_filter)
open Verif.Trans (prod eye EqOn prod_append mul_eye mul_congr)

variable {K : Type} [Field K] [LinearOrder K] [IsStrictOrderedRing K]
variable {u lo hi δ : K} {L : Nat} {o : Ops K} {n a : Nat} {p : Nat → K}

theorem Room.mono {L' : Nat} (h : Room u lo hi δ L) (hL : L' ≤ L) : Room u lo hi δ L' := by
  have hp := pow_le_pow_of_le_one h.r0.le h.r1 hL
  have hd := pow_pos h.d0 10
  exact ⟨h.u0, h.u1, h.pos, h.d0, h.d1, h.low.trans (mul_le_mul_of_nonneg_right hp hd.le),
    h.high.trans (mul_le_mul_of_nonneg_right hp (mul_nonneg hd.le h.hi_pos.le))⟩

/-! ## Transition matrices -/

theorem products_app (hr : Rounds u lo hi o) (h : Room u lo hi δ L) (hn : δ * n ≤ 1) :
    ∀ (rest done : List (Mat K)) (last : Mat K) (c : Nat),
      (∀ i < n, ∀ j < n, App (1 - u) c (last i j) (prod n done i j)) →
      (∀ M ∈ rest, ∀ i < n, ∀ j < n, 0 ≤ M i j ∧ In δ 1 1 (M i j)) →
      (∀ k ≤ rest.length, ∀ i < n, ∀ j < n, In δ 1 1 (prod n (done ++ rest.take k) i j)) →
      c + rest.length * n ≤ L →
      (products o n last rest).length = rest.length ∧
      ∀ k (hk : k < (products o n last rest).length), ∀ i < n, ∀ j < n,
        App (1 - u) (c + (k + 1) * n) ((products o n last rest)[k] i j) (prod n (done ++ rest.take (k + 1)) i j)
  | [], _, _, _, _, _, _, _ => ⟨rfl, fun k hk => absurd hk (Nat.not_lt_zero k)⟩
  | M :: rest, done, last, c, hlast, hM, hP, hL => by
    rw [List.length_cons] at hL
    have hstep : ∀ i < n, ∀ j < n, App (1 - u) (c + n) (matmul o n last M i j) (prod n (done ++ [M]) i j) := by
      intro i hi j hj
      rw [prod_append n done M i hi j hj]
      have hprev := fun k hk => hP 0 (by omega) i hi k hk
      simp only [List.take_zero, List.append_nil] at hprev
      have hM' := fun k hk => hM M (by simp) k hk j hj
      have h0 : ∀ k < n, 0 ≤ prod n done i k * M k j := fun k hk => mul_nonneg (hlast i hi k hk).right (hM' k hk).1
      have hI : ∀ k < n, In δ 2 2 (prod n done i k * M k j) := fun k hk =>
        In.mul h.d0 (hlast i hi k hk).right (hM' k hk).1 (hprev k hk) (hM' k hk).2
      have hs := In.sum h.d0 hn h0 hI
      have hs0 : 0 ≤ ∑ k ∈ Finset.range n, prod n done i k * M k j :=
        Finset.sum_nonneg fun k hk => h0 k (Finset.mem_range.1 hk)
      have := dot_app hr h (m := c) (k := 0) (n := n) (A := fun k => last i k) (A' := fun k => prod n done i k)
        (B := fun k => M k j) (B' := fun k => M k j) (fun k hk => hlast i hi k hk)
        (fun k hk => App.refl h.r1 h.r0 (hM' k hk).1) (by nlinarith)
        (fun k hk => (hI k hk).mono h.d0 h.d1 (h0 k hk) (by omega) (by omega))
        (hs.mono h.d0 h.d1 hs0 (by omega) (by omega))
      exact this
    obtain ⟨i1, i2⟩ := products_app hr h hn rest (done ++ [M]) (matmul o n last M) (c + n) hstep
      (fun A hA => hM A (by simp [hA])) (by
        intro k hk
        have := hP (k + 1) (by simp; omega)
        rw [List.take_succ_cons] at this
        rwa [List.append_assoc, List.singleton_append]) (by nlinarith)
    refine ⟨by unfold products; simp [i1], ?_⟩
    intro k hk i hi j hj
    cases k with
    | zero =>
      have := hstep i hi j hj
      have e : (products o n last (M :: rest))[0] = matmul o n last M := rfl
      rw [e, List.take_succ_cons, List.take_zero]
      simpa using this
    | succ k =>
      have hk' : k < (products o n (matmul o n last M) rest).length := by
        simp only [products, List.length_cons] at hk; omega
      have := i2 k hk' i hi j hj
      rw [List.append_assoc, List.singleton_append] at this
      rw [List.take_succ_cons]
      have e : c + (k + 1 + 1) * n = c + n + (k + 1) * n := by ring
      rw [e]
      exact this

theorem tList_app (hr : Rounds u lo hi o) (h : Room u lo hi δ L) (hn : δ * n ≤ 1) (reverse : Bool)
    {Ms : List (Mat K)} (hne : Ms ≠ []) (hM : ∀ M ∈ Ms, ∀ i < n, ∀ j < n, 0 ≤ M i j ∧ In δ 1 1 (M i j))
    (hP : ∀ k, 1 ≤ k → k ≤ Ms.length → ∀ i < n, ∀ j < n,
      In δ 1 1 (prod n ((if reverse then Ms.reverse else Ms).take k) i j)) (hL : (Ms.length - 1) * n ≤ L) :
    ∃ Ts, tList o n reverse Ms = some Ts ∧ Ts.length = Ms.length ∧
      ∀ k (hk : k < Ts.length), ∀ i < n, ∀ j < n,
        App (1 - u) (k * n) (Ts[k] i j) (prod n ((if reverse then Ms.reverse else Ms).take (k + 1)) i j) := by
  unfold tList
  set Os := if reverse then Ms.reverse else Ms with hO
  have hmem : ∀ M ∈ Os, M ∈ Ms := by
    intro M hMO
    rw [hO] at hMO
    split at hMO
    · exact List.mem_reverse.1 hMO
    · exact hMO
  have hlen : Os.length = Ms.length := by rw [hO]; split <;> simp
  have hne' : Os ≠ [] := List.length_pos_iff.1 (by rw [hlen]; exact List.length_pos_iff.2 hne)
  obtain ⟨M, rest, hOs⟩ := List.exists_cons_of_ne_nil hne'
  rw [hOs] at hP hmem hlen
  rw [hOs]
  have hfirst : EqOn n (prod n [M]) M := mul_eye M
  rw [List.length_cons] at hlen
  obtain ⟨i1, i2⟩ := products_app hr h hn rest [M] M 0 (fun i hi j hj => by
      rw [hfirst i hi j hj]
      exact App.refl h.r1 h.r0 (hM M (hmem M (by simp)) i hi j hj).1)
    (fun A hA => hM A (hmem A (by simp [hA])))
    (fun k hk => by
      have := hP (k + 1) (by omega) (by omega)
      rwa [List.take_succ_cons] at this) (by rw [← hlen] at hL; simpa using hL)
  refine ⟨_, rfl, by simp [i1, hlen], ?_⟩
  intro k hk i hi j hj
  cases k with
  | zero =>
    rw [List.take_succ_cons, List.take_zero, hfirst i hi j hj]
    exact App.refl h.r1 h.r0 (hM M (hmem M (by simp)) i hi j hj).1
  | succ k =>
    have hk' : k < (products o n M rest).length := by
      simp only [List.length_cons] at hk; omega
    have := i2 k hk' i hi j hj
    rw [zero_add] at this
    simpa using this

/-! ## Lengths of the steps -/

theorem diffs_length {F : Type} (o : Ops F) : ∀ l : List F, (diffs o l).length = l.length - 1
  | [] => rfl
  | [_] => rfl
  | a :: b :: r => by
    unfold diffs
    rw [List.length_cons, diffs_length o (b :: r)]
    simp

theorem diffs_get {F : Type} (o : Ops F) : ∀ (l : List F) (k : Nat) (hk : k < (diffs o l).length) (h : k + 1 < l.length),
    (diffs o l)[k] = o.sub l[k + 1] l[k]
  | [], k, _, h => by simp at h
  | [_], k, _, h => by simp at h
  | a :: b :: r, 0, _, _ => rfl
  | a :: b :: r, k + 1, hk, h => by
    have := diffs_get o (b :: r) k (by simpa [diffs] using hk) (by simpa using h)
    simpa [diffs] using this

/-- Length of the step number `k` of a flow with `len` steps. -/
def gapAt (reverse : Bool) (ts : List K) (len k : Nat) : K :=
  if reverse then ts.getD (len - k) 0 - ts.getD (len - k - 1) 0 else ts.getD (k + 1) 0 - ts.getD k 0

theorem steps_app (hr : Rounds u lo hi o) (h : Room u lo hi δ L) {ts : List K} (hts : ts.Pairwise (· < ·))
    (reverse : Bool) {len : Nat} (hl : ts.length = len + 1)
    (hg : ∀ k < len, In δ 1 1 (gapAt reverse ts len k)) :
    let ds := steps o (if reverse then ts.reverse else ts)
    ds.length = len ∧ ∀ k (hk : k < ds.length), App (1 - u) 1 ds[k] (gapAt reverse ts len k) ∧ 0 < gapAt reverse ts len k := by
  set us := if reverse then ts.reverse else ts with hus
  intro ds
  have hget : ∀ a b : Nat, a < b → b < ts.length → ts.getD a 0 < ts.getD b 0 := by
    intro a b hab hb
    rw [getD_get _ _ hb, getD_get _ _ (by omega)]
    exact List.pairwise_iff_getElem.1 hts a b (by omega) hb hab
  have hrev : ∀ k, k < ts.length → ts.reverse.getD k 0 = ts.getD (ts.length - 1 - k) 0 := by
    intro k hk
    rw [getD_get _ _ (by simpa using hk), getD_get _ _ (by omega), List.getElem_reverse]
  have hlen : us.length = len + 1 := by
    rw [hus]; split <;> simp [hl]
  have hne : us ≠ [] := List.length_pos_iff.1 (by omega)
  obtain ⟨t0, r, hu⟩ := List.exists_cons_of_ne_nil hne
  have h0 : us.getD 0 0 = t0 := by rw [hu]; rfl
  have hlast : us.getLastD t0 = us.getD len 0 := by
    rw [Flow.getLastD_eq us t0 hne, hlen, Nat.add_sub_cancel, getD_get _ _ (by omega), getD_get _ _ (by omega)]
  have hds : ds = if us.getLastD t0 < t0 then (diffs o us).map o.neg else diffs o us := by
    show steps o us = _
    rw [hu]
    simp only [steps, hr.lt, decide_eq_true_eq]
  have hgl : (diffs o us).length = len := by rw [diffs_length, hlen]; rfl
  have hpos : ∀ k < len, 0 < gapAt reverse ts len k := by
    intro k hk
    unfold gapAt
    split
    · exact sub_pos.2 (hget _ _ (by omega) (by omega))
    · exact sub_pos.2 (hget _ _ (by omega) (by omega))
  -- a difference of two times
  have hsub : ∀ (x y g : K), |x - y| = g → 0 < g → In δ 1 1 g → |o.sub x y - (x - y)| ≤ u * g := by
    intro x y g hg hg0 hgI
    have hI := hgI.mono h.d0 h.d1 hg0.le (show 1 ≤ 10 by omega) (show 1 ≤ 10 by omega)
    have hrange := h.range (App.refl (m := 0) h.r1 h.r0 hg0.le) (by omega) hI
    rcases hrange with e | ⟨e1, e2⟩
    · exact absurd e hg0.ne'
    · have := hr.sub x y (by rw [hg]; exact e2)
      rwa [hg, max_eq_left e1] at this
  have hdl : ds.length = len := by
    rw [hds]; split <;> simp [hgl]
  refine ⟨hdl, ?_⟩
  intro k hk
  have hk' : k < len := by omega
  refine ⟨?_, hpos k hk'⟩
  apply App.of_error h.u0 h.u1 (hpos k hk').le
  have hdk : (diffs o us)[k]'(by omega) = o.sub (us.getD (k + 1) 0) (us.getD k 0) := by
    rw [diffs_get o us k (by omega) (by omega), getD_get _ _ (by omega), getD_get _ _ (by omega)]
  cases hrv : reverse
  · have hus' : us = ts := by rw [hus, hrv]; rfl
    have hge : ¬ us.getLastD t0 < t0 := by
      rw [hlast, ← h0, hus']
      exact not_lt.2 (hget 0 len (by omega) (by omega)).le
    have e : ds[k] = o.sub (ts.getD (k + 1) 0) (ts.getD k 0) := by
      rw [← hus', ← hdk]
      simp only [hds, if_neg hge]
    have hg' := hg k hk'
    have hp' := hpos k hk'
    rw [hrv] at hg' hp'
    have eg : gapAt false ts len k = ts.getD (k + 1) 0 - ts.getD k 0 := by unfold gapAt; simp
    rw [eg] at hg' hp' ⊢
    rw [e]
    exact hsub _ _ _ (abs_of_pos hp') hp' hg'
  · have hus' : us = ts.reverse := by rw [hus, hrv]; rfl
    have hlt : us.getLastD t0 < t0 := by
      rw [hlast, ← h0, hus', hrev _ (by omega), hrev _ (by omega)]
      exact hget _ _ (by omega) (by omega)
    have e : ds[k] = -o.sub (ts.getD (len - k - 1) 0) (ts.getD (len - k) 0) := by
      have e1 : us.getD (k + 1) 0 = ts.getD (len - k - 1) 0 := by
        rw [hus', hrev _ (by omega)]; congr 1; omega
      have e2 : us.getD k 0 = ts.getD (len - k) 0 := by
        rw [hus', hrev _ (by omega)]; congr 1; omega
      rw [← hr.neg, ← e1, ← e2, ← hdk]
      simp only [hds, if_pos hlt, List.getElem_map]
    have hg' := hg k hk'
    have hp' := hpos k hk'
    rw [hrv] at hg' hp'
    have eg : gapAt true ts len k = ts.getD (len - k) 0 - ts.getD (len - k - 1) 0 := by unfold gapAt; simp
    rw [eg] at hg' hp' ⊢
    rw [e]
    have := hsub (ts.getD (len - k - 1) 0) (ts.getD (len - k) 0) _ (by rw [abs_sub_comm]; exact abs_of_pos hp') hp' hg'
    rw [← abs_neg]
    have e3 : -(-o.sub (ts.getD (len - k - 1) 0) (ts.getD (len - k) 0) - (ts.getD (len - k) 0 - ts.getD (len - k - 1) 0))
        = o.sub (ts.getD (len - k - 1) 0) (ts.getD (len - k) 0) - (ts.getD (len - k - 1) 0 - ts.getD (len - k) 0) := by
      ring
    rw [e3]
    exact this

/-! ## The covariances -/

theorem flowSteps_eq (reverse : Bool) (Ms : List (Mat K)) (ts : List K) (m : Nat) :
    flowSteps n reverse Ms ts m = (List.range m).map fun k =>
      (gapAt reverse ts Ms.length k, prod n ((if reverse then Ms.reverse else Ms).take (k + 1))) := by
  unfold flowSteps gapAt
  cases reverse <;> simp

theorem forall₂_take {α β : Type} {R : α → β → Prop} {l : List α} {l' : List β}
    (hl : l.length = l'.length) (m : Nat)
    (h : ∀ k (h1 : k < l.length) (h2 : k < l'.length), k < m → R l[k] l'[k]) :
    List.Forall₂ R (l.take m) (l'.take m) := by
  rw [List.forall₂_iff_get]
  refine ⟨by simp [hl], ?_⟩
  intro k h1 h2
  simp only [List.length_take] at h1 h2
  have := h k (by omega) (by omega) (by omega)
  simpa using this

/-- The general form: matrices that are known up to roundings, of which there are at most `a m`
in the first `m` matrices. -/
theorem core (hr : Rounds u lo hi o) {L : Nat → Nat} {N : Nat}
    (h : ∀ m, 1 ≤ m → m ≤ N → Room u lo hi δ (L m)) (hn : δ * n ≤ 1) (hN : δ * N ≤ 1)
    (hp : ∀ i < n, 0 ≤ p i ∧ In δ 1 1 (p i)) (reverse : Bool) {ts : List K} (hts : ts.Pairwise (· < ·))
    (hl : ts.length = N + 1) (hg : ∀ k < N, In δ 1 1 (gapAt reverse ts N k)) (hpos : 1 ≤ N)
    {Ts : List (Mat K)} (hlen : Ts.length = N) (T' : Nat → Mat K) (a : Nat → Nat)
    (hT : ∀ m k (hk : k < Ts.length), k < m → m ≤ N → ∀ i < n, ∀ j < n, App (1 - u) (a m) (Ts[k] i j) (T' k i j))
    (hTI : ∀ k < N, ∀ i < n, ∀ j < n, In δ 1 1 (T' k i j))
    (hL : ∀ m, 3 * a m + 5 * n + 2 * m + 6 = L m) (ks : List Nat) :
    ∃ J : Nat → Mat K, iList o n p Ts (if reverse then ts.reverse else ts) ks =
        ((List.range' 1 N).filter fun m => decide (m ∈ ks)).map J ∧
      ∀ m, 1 ≤ m → m ≤ N → ∀ i < n, ∀ j < n,
        let cov := meanCov n p ((List.range m).map fun k => (gapAt reverse ts N k, T' k)) i j
        |J m i j - cov| ≤ ((1 - u)⁻¹ ^ (L m + 1) - 1) * (cov + 2 * (p i * p j)) + u * lo := by
  set ds := steps o (if reverse then ts.reverse else ts) with hds
  set l := Ts.zip ds with hldef
  have hsteps := steps_app hr (h 1 le_rfl hpos) hts reverse hl hg
  simp only at hsteps
  rw [← hds] at hsteps
  obtain ⟨hdl, hd⟩ := hsteps
  have hzl : l.length = N := by rw [hldef, List.length_zip, hlen, hdl, min_self]
  refine ⟨fun m => fun i j => o.sub (stored o n p (acc o n p (l.take m)).1 (acc o n p (l.take m)).2 i j)
    (o.mul (p i) (p j)), ?_, ?_⟩
  · unfold iList integral
    rw [← hds, ← hldef, (loop_eq o n p ks l).2.2, hzl, List.map_map]
    exact range'_filter (K := K) N ks (fun m => fun i j =>
      o.sub (stored o n p (acc o n p (l.take m)).1 (acc o n p (l.take m)).2 i j) (o.mul (p i) (p j)))
  · intro m hm1 hmN i hi' j hj cov
    set l' : List (Mat K × K) := (List.range N).map fun k => (T' k, gapAt reverse ts N k) with hl'
    have hl'len : l'.length = N := by rw [hl']; simp
    have hrel : List.Forall₂ (StepRel u δ n (a m)) (l.take m) (l'.take m) := by
      apply forall₂_take (by rw [hzl, hl'len])
      intro k h1 h2 hkm
      have e1 : l[k] = (Ts[k]'(by omega), ds[k]'(by omega)) := by
        simp only [hldef, List.getElem_zip]
      have e2 : l'[k] = (T' k, gapAt reverse ts N k) := by simp [hl']
      rw [e1, e2]
      have hk : k < N := by omega
      have hd' := hd k (by omega)
      exact ⟨hT m k (by omega) hkm hmN, hTI k hk, hd'.1, hg k hk, hd'.2⟩
    have htake : l'.take m = (List.range m).map fun k => (T' k, gapAt reverse ts N k) := by
      rw [hl', ← List.map_take, List.take_range, min_eq_left hmN]
    have hlen' : (l'.take m).length = m := by rw [htake]; simp
    have hne : l'.take m ≠ [] := List.length_pos_iff.1 (by omega)
    have hroom := h m hm1 hmN
    have hmd : δ * ((l'.take m).length : K) ≤ 1 := by
      rw [hlen']
      refine le_trans (mul_le_mul_of_nonneg_left ?_ hroom.d0.le) hN
      exact_mod_cast hmN
    have key := covariance_error hr hroom hn hp hrel hne hmd (by rw [hlen']; exact (hL m).le) hi' hj
    have hw := (stored_app hr hroom hn hp hrel hne hmd (by rw [hlen']; exact (hL m).le) hi' hj).2.1
    have hTnn : ∀ e ∈ l'.take m, ∀ i < n, ∀ j < n, 0 ≤ e.1 i j := by
      intro e he i hi j hj
      obtain ⟨k, hk, rfl⟩ := List.getElem_of_mem he
      exact ((List.forall₂_iff_get.1 hrel).2 k (by rw [hrel.length_eq]; exact hk) hk).mat i hi j hj |>.right
    have hmean := stored_mean (fun i hi => (hp i hi).1) hTnn hw.ne' i hi' j hj
    have hcov : meanCov n p ((l'.take m).map fun e => (e.2, e.1)) i j = cov := by
      rw [htake, List.map_map]
      rfl
    rw [hcov] at hmean
    simp only at hmean
    rw [hmean] at key
    have e : p i * gsum n p (l'.take m) i j * p j * (1 / wsum (l'.take m)) = cov + p i * p j := by linarith
    rw [e] at key
    have e2 : cov + p i * p j + p i * p j = cov + 2 * (p i * p j) := by ring
    rw [e2] at key
    exact key

theorem roundings_mono {m N : Nat} (h : m ≤ N) : roundings n m ≤ roundings n N := by
  unfold roundings
  have := Nat.mul_le_mul_right n (Nat.mul_le_mul_left 3 h)
  omega

/-- **C109** (under the assumption that no extreme numbers occur).  In floating point arithmetic,
whatever the order in which sums are computed, each covariance of a flow between dense inter-event
matrices, forward or backward and for every grid, differs from the exact mean of the covariances of
the flow by at most the given number of roundings, relative to the two terms whose difference it
is. -/
theorem C109_error_partial (hr : Rounds u lo hi o) (reverse : Bool) {Ms : List (Mat K)} (hne : Ms ≠ [])
    (hroom : Roomy u lo hi δ (roundings n Ms.length)) {ts : List K} (hts : ts.Pairwise (· < ·))
    (hl : ts.length = Ms.length + 1)
    (hmod : ModerateFlow δ n p Ms (flowSteps n reverse Ms ts Ms.length)) (ks : List Nat) :
    ∃ Ts, tList o n reverse Ms = some Ts ∧ ∃ J : Nat → Mat K,
      iList o n p Ts (if reverse then ts.reverse else ts) ks =
        ((List.range' 1 Ms.length).filter fun m => decide (m ∈ ks)).map J ∧
      ∀ m, 1 ≤ m → m ≤ Ms.length → ∀ i < n, ∀ j < n,
        let cov := meanCov n p (flowSteps n reverse Ms ts m) i j
        |J m i j - cov| ≤ ((1 - u)⁻¹ ^ (roundings n m + 1) - 1) * (cov + 2 * (p i * p j)) + u * lo := by
  obtain ⟨r1, r2, r3, r4, r5, r6, r7⟩ := hroom
  have hR : Room u lo hi δ (roundings n Ms.length) := ⟨r1, r2, r3, r4, r5, r6, r7⟩
  have hflow : ∀ k < Ms.length, (0 < gapAt reverse ts Ms.length k ∧ Moderate δ (gapAt reverse ts Ms.length k)) ∧
      ∀ i < n, ∀ j < n, 0 ≤ prod n ((if reverse then Ms.reverse else Ms).take (k + 1)) i j ∧
        Moderate δ (prod n ((if reverse then Ms.reverse else Ms).take (k + 1)) i j) := by
    intro k hk
    apply hmod.flow (gapAt reverse ts Ms.length k, prod n ((if reverse then Ms.reverse else Ms).take (k + 1)))
    rw [flowSteps_eq]
    exact List.mem_map.2 ⟨k, List.mem_range.2 hk, rfl⟩
  have hpos : 1 ≤ Ms.length := List.length_pos_iff.2 hne
  have hN : δ * (Ms.length : K) ≤ 1 := by
    have := hmod.number
    rw [flowSteps_eq] at this
    simpa using this
  obtain ⟨Ts, hTs, hlen, hT⟩ := tList_app hr hR hmod.nodes reverse hne
    (fun M hM i hi j hj => ⟨(hmod.step M hM i hi j hj).1, (hmod.step M hM i hi j hj).2.toIn⟩)
    (fun k hk1 hk2 i hi j hj => by
      have := ((hflow (k - 1) (by omega)).2 i hi j hj).2.toIn
      rwa [show k - 1 + 1 = k by omega] at this) (by
        unfold roundings
        have : (Ms.length - 1) * n ≤ 3 * Ms.length * n := Nat.mul_le_mul_right n (by omega)
        omega)
  refine ⟨Ts, hTs, ?_⟩
  have := core hr (δ := δ) (n := n) (p := p) (L := fun m => 3 * ((m - 1) * n) + 5 * n + 2 * m + 6) (N := Ms.length)
    (fun m hm1 hm => hR.mono (by
      unfold roundings
      have : (m - 1) * n + n ≤ Ms.length * n := by
        rw [← Nat.succ_mul]
        exact Nat.mul_le_mul_right n (by omega)
      rw [Nat.mul_assoc]
      omega)) hmod.nodes hN
    (fun i hi => ⟨(hmod.start i hi).1, (hmod.start i hi).2.toIn⟩) reverse hts hl
    (fun k hk => (hflow k hk).1.2.toIn) hpos hlen
    (fun k => prod n ((if reverse then Ms.reverse else Ms).take (k + 1))) (fun m => (m - 1) * n)
    (fun m k hk hkm hm i hi j hj => (hT k hk i hi j hj).mono hR.r1 hR.r0 (Nat.mul_le_mul_right n (by omega)))
    (fun k hk i hi j hj => ((hflow k hk).2 i hi j hj).2.toIn) (fun m => rfl) ks
  obtain ⟨J, hJ, hval⟩ := this
  refine ⟨J, hJ, ?_⟩
  intro m hm1 hm i hi j hj cov
  have := hval m hm1 hm i hi j hj
  simp only at this
  rw [← flowSteps_eq] at this
  have e : roundings n m = 3 * ((m - 1) * n) + 5 * n + 2 * m + 6 := by
    unfold roundings
    obtain ⟨m', rfl⟩ : ∃ m', m = m' + 1 := ⟨m - 1, by omega⟩
    simp only [Nat.add_sub_cancel]
    ring
  rw [e]
  exact this

end Verif.FloatFlow
