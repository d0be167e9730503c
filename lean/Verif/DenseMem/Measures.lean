import Verif.DenseMem.Lemmas
import Verif.Info.Versions

/-!
# The arrays of the comparison measures
-/

set_option linter.dupNamespace false
set_option linter.unusedSectionVars false

namespace Verif.DenseMem

open Verif.Memory

variable {K : Type} [Field K] [LinearOrder K] [IsStrictOrderedRing K]

/-! ## Filling an array from the left -/

/-- The first places of an array of length `n`, followed by zeros. -/
def filled {α : Type} [Zero α] (n : Nat) (l : List α) : List α := l ++ List.replicate (n - l.length) 0

theorem filled_nil {α : Type} [Zero α] (n : Nat) : filled n ([] : List α) = List.replicate n 0 := by simp [filled]

theorem filled_length {α : Type} [Zero α] (n : Nat) (l : List α) (h : l.length ≤ n) : (filled n l).length = n := by
  simp [filled]; omega

theorem wr_filled {α : Type} [Zero α] (n : Nat) (l : List α) (x : α) (h : l.length < n) :
    wr (filled n l) (l.length : Int) x = .ok (filled n (l ++ [x])) := by
  unfold filled
  obtain ⟨m, hm⟩ : ∃ m, n - l.length = m + 1 := ⟨n - l.length - 1, by omega⟩
  rw [hm, List.replicate_succ, wr_append]
  rw [List.length_append, List.length_singleton, show n - (l.length + 1) = m by omega]
  simp

theorem wr_filled_err {α : Type} [Zero α] (n : Nat) (l : List α) (x : α) (h : l.length = n) :
    wr (filled n l) (l.length : Int) x = .error .write := by
  apply wr_err
  rw [filled_length n l (le_of_eq h), h]
  omega

/-! ## Entropies -/

/-- Shannon's entropy of a list of frequencies. -/
def entropy (lg : K → K) (p : List K) : K := -(p.map fun x => if x = 0 then 0 else x * lg x).sum

theorem entropy_foldl (lg : K → K) (p : List K) : ∀ h : K,
    p.foldl (fun h x => if x ≠ 0 then h - x * lg x else h) h = h + entropy lg p := by
  induction p with
  | nil => intro h; simp [entropy]
  | cons a p ih =>
    intro h
    rw [List.foldl_cons, ih]
    unfold entropy
    by_cases ha : a = 0
    · simp [ha]
    · simp only [ne_eq, ha, not_false_eq_true, if_true, List.map_cons, if_false, List.sum_cons]
      ring

theorem entropyRun_ok (lg : K → K) (p : List K) (n : Nat) (h : p.length = n) :
    entropyRun lg p n = .ok (entropy lg p) := by
  unfold entropyRun
  rw [← h, loop_zero]
  rw [foldlM_range p _ (fun h x => .ok (if x ≠ 0 then h - x * lg x else h)) 0]
  · rw [foldlM_pure, entropy_foldl, zero_add]
  · intro d hd s
    rw [rd_nat p d hd]
    by_cases hx : p[d] ≠ 0
    · rw [if_pos hx]
      simp only [ok_bind]
      rw [if_pos hx]
      rfl
    · rw [if_neg hx]
      simp only [ok_bind]
      rw [if_neg hx]
      rfl

theorem entropy_filled (lg : K → K) (n : Nat) (l : List K) : entropy lg (filled n l) = entropy lg l := by
  simp [entropy, filled]

/-! ## Mutual information -/

/-- The relative sizes of the clusters. -/
def sizes (c : List (Finset Nat)) (N : Nat) : List K := c.map fun a => (a.card : K) / (N : K)

/-- The relative sizes of the intersections. -/
def interSizes (c1 c2 : List (Finset Nat)) (N : Nat) : List K :=
  c1.flatMap fun a => c2.map fun b => ((a ∩ b).card : K) / (N : K)

theorem divN_ok (a N : Nat) (h : N ≠ 0) : (divN a N : Run K) = .ok ((a : K) / (N : K)) := if_neg h

theorem sizes_take_succ (c : List (Finset Nat)) (N j : Nat) (hj : j < c.length) :
    (sizes (c.take (j + 1)) N : List K) = sizes (c.take j) N ++ [(c[j].card : K) / (N : K)] := by
  unfold sizes
  rw [List.take_succ_eq_append_getElem hj, List.map_append]
  rfl

theorem margRun_ok (c2 : List (Finset Nat)) (N n2 : Nat) (hN : N ≠ 0) (h : c2.length ≤ n2) :
    (margRun c2 N n2 : Run (List K)) = .ok (filled n2 (sizes c2 N)) := by
  unfold margRun
  have key : ∃ p : List K, loop ((0 : Nat) : Int) (c2.length : Int) (List.replicate n2 0) (fun p2 j => (do
      let b ← rd c2 j
      let y ← divN b.card N
      wr p2 j y : Run (List K))) = .ok p ∧ p = filled n2 (sizes (c2.take c2.length) N) := by
    refine loop_inv 0 c2.length (Nat.zero_le _) _ (fun j p => p = filled n2 (sizes (c2.take j) N)) ?_ _ ?_
    · intro j _ hj p hp
      have hl : (sizes (c2.take j) N : List K).length = j := by simp [sizes]; omega
      rw [rd_nat c2 j hj, ok_bind, divN_ok _ _ hN, ok_bind, hp]
      have := wr_filled n2 (sizes (c2.take j) N : List K) ((c2[j].card : K) / (N : K)) (by omega)
      rw [hl] at this
      refine ⟨_, this, ?_⟩
      rw [sizes_take_succ c2 N j hj]
    · simp [sizes, filled_nil]
  obtain ⟨p, e, hp⟩ := key
  rw [List.take_length] at hp
  rw [← hp]
  exact e

theorem margRun_err (c2 : List (Finset Nat)) (N n2 : Nat) (hN : N ≠ 0) (h : n2 < c2.length) :
    (margRun c2 N n2 : Run (List K)) = .error .write := by
  unfold margRun
  refine loop_fail 0 c2.length n2 (Nat.zero_le _) h _ (fun j p => p = filled n2 (sizes (c2.take j) N)) .write
    ?_ ?_ _ ?_
  · intro j _ hj p hp
    have hl : (sizes (c2.take j) N : List K).length = j := by simp [sizes]; omega
    rw [rd_nat c2 j (by omega), ok_bind, divN_ok _ _ hN, ok_bind, hp]
    have := wr_filled n2 (sizes (c2.take j) N : List K) ((c2[j].card : K) / (N : K)) (by omega)
    rw [hl] at this
    refine ⟨_, this, ?_⟩
    rw [sizes_take_succ c2 N j (by omega)]
  · intro p hp
    have hl : (sizes (c2.take n2) N : List K).length = n2 := by simp [sizes]; omega
    rw [rd_nat c2 n2 h, ok_bind, divN_ok _ _ hN, ok_bind, hp]
    have := wr_filled_err n2 (sizes (c2.take n2) N : List K) ((c2[n2].card : K) / (N : K)) hl
    rwa [hl] at this
  · simp [sizes, filled_nil]

/-- The inner loop, when there is room. -/
theorem inner_ok (a : Finset Nat) (c2 : List (Finset Nat)) (N m : Nat) (hN : N ≠ 0) (done : List K)
    (h : done.length + c2.length ≤ m) :
    loop ((0 : Nat) : Int) (c2.length : Int) (filled m done, (done.length : Int)) (fun q j => (do
      let b ← rd c2 j
      let y ← divN (a ∩ b).card N
      let p12 ← wr q.1 q.2 y
      pure (p12, q.2 + 1) : Run (List K × Int))) =
    .ok (filled m (done ++ c2.map fun b => ((a ∩ b).card : K) / (N : K)), ((done.length + c2.length : Nat) : Int)) := by
  have key : ∃ r : List K × Int, loop ((0 : Nat) : Int) (c2.length : Int) (filled m done, (done.length : Int)) (fun q j => (do
      let b ← rd c2 j
      let y ← divN (a ∩ b).card N
      let p12 ← wr q.1 q.2 y
      pure (p12, q.2 + 1) : Run (List K × Int))) = .ok r ∧
      r = (filled m (done ++ (c2.take c2.length).map fun b => ((a ∩ b).card : K) / (N : K)),
        ((done.length + c2.length : Nat) : Int)) := by
    refine loop_inv 0 c2.length (Nat.zero_le _) _ (fun j r =>
      r = (filled m (done ++ (c2.take j).map fun b => ((a ∩ b).card : K) / (N : K)),
        ((done.length + j : Nat) : Int))) ?_ _ (by simp)
    intro j _ hj r hr
    have hl : (done ++ (c2.take j).map fun b => ((a ∩ b).card : K) / (N : K)).length = done.length + j := by
      simp; omega
    rw [rd_nat c2 j hj, ok_bind, divN_ok _ _ hN, ok_bind, hr]
    have := wr_filled m (done ++ (c2.take j).map fun b => ((a ∩ b).card : K) / (N : K))
      (((a ∩ c2[j]).card : K) / (N : K)) (by omega)
    rw [hl] at this
    simp only [this, ok_bind]
    refine ⟨_, rfl, ?_⟩
    rw [List.take_succ_eq_append_getElem hj, List.map_append, List.append_assoc]
    simp
    ring
  obtain ⟨r, e, hr⟩ := key
  rw [List.take_length] at hr
  rw [e, hr]

theorem joint_ok (c1 c2 : List (Finset Nat)) (N n1 n2 : Nat) (hN : N ≠ 0) (h1 : c1.length ≤ n1)
    (h2 : c2.length ≤ n2) :
    (jointRun c1 c2 N n1 n2 : Run (List K × List K × Int)) =
      .ok (filled n1 (sizes c1 N), filled (n1 * n2) (interSizes c1 c2 N), ((c1.length * c2.length : Nat) : Int)) := by
  unfold jointRun
  have hlen : ∀ l : List (Finset Nat), (interSizes l c2 N : List K).length = l.length * c2.length := by
    intro l
    induction l with
    | nil => simp [interSizes]
    | cons a l ih =>
      unfold interSizes at ih ⊢
      rw [List.flatMap_cons, List.length_append, ih, List.length_map, List.length_cons]
      ring
  have key : ∃ r : List K × List K × Int, loop ((0 : Nat) : Int) (c1.length : Int)
      (List.replicate n1 0, List.replicate (n1 * n2) 0, 0) (fun st i => (do
        let a ← rd c1 i
        let x ← divN a.card N
        let p1 ← wr st.1 i x
        let r ← loop 0 c2.length (st.2.1, st.2.2) fun q j => do
          let b ← rd c2 j
          let y ← divN (a ∩ b).card N
          let p12 ← wr q.1 q.2 y
          pure (p12, q.2 + 1)
        pure (p1, r.1, r.2) : Run (List K × List K × Int))) = .ok r ∧
      r = (filled n1 (sizes (c1.take c1.length) N), filled (n1 * n2) (interSizes (c1.take c1.length) c2 N),
        ((c1.length * c2.length : Nat) : Int)) := by
    refine loop_inv 0 c1.length (Nat.zero_le _) _ (fun i r =>
      r = (filled n1 (sizes (c1.take i) N), filled (n1 * n2) (interSizes (c1.take i) c2 N),
        ((i * c2.length : Nat) : Int))) ?_ _ ?_
    · intro i _ hi r hr
      have hl : (sizes (c1.take i) N : List K).length = i := by simp [sizes]; omega
      have hl2 : (interSizes (c1.take i) c2 N : List K).length = i * c2.length := by
        rw [hlen, List.length_take, Nat.min_eq_left (by omega)]
      have hroom : (interSizes (c1.take i) c2 N : List K).length + c2.length ≤ n1 * n2 := by
        rw [hl2]
        calc i * c2.length + c2.length = (i + 1) * c2.length := by ring
          _ ≤ n1 * n2 := Nat.mul_le_mul (by omega) h2
      have hw := wr_filled n1 (sizes (c1.take i) N : List K) ((c1[i].card : K) / (N : K)) (by omega)
      rw [hl] at hw
      have hin := inner_ok c1[i] c2 N (n1 * n2) hN (interSizes (c1.take i) c2 N : List K) hroom
      rw [hl2, Nat.cast_zero] at hin
      rw [rd_nat c1 i hi, ok_bind, divN_ok _ _ hN, ok_bind, hr, hw, ok_bind, hin, ok_bind]
      refine ⟨_, rfl, ?_⟩
      rw [sizes_take_succ c1 N i hi]
      have : (interSizes (c1.take (i + 1)) c2 N : List K) =
          interSizes (c1.take i) c2 N ++ c2.map fun b => ((c1[i] ∩ b).card : K) / (N : K) := by
        unfold interSizes
        rw [List.take_succ_eq_append_getElem hi, List.flatMap_append]
        simp
      rw [this, show (i + 1) * c2.length = i * c2.length + c2.length by ring]
    · simp [sizes, interSizes, filled_nil]
  obtain ⟨r, e, hr⟩ := key
  rw [List.take_length] at hr
  rw [← hr]
  exact e

/-- The nested loops end well or with a stray write; they need a place for every cluster. -/
theorem joint_cases (c1 c2 : List (Finset Nat)) (N n1 n2 : Nat) (hN : N ≠ 0) :
    (c1.length ≤ n1 ∧ ∃ r, (jointRun c1 c2 N n1 n2 : Run (List K × List K × Int)) = .ok r) ∨
    (jointRun c1 c2 N n1 n2 : Run (List K × List K × Int)) = .error .write := by
  unfold jointRun
  have hinner : ∀ (a : Finset Nat) (s : List K × Int) (e : Fault),
      loop ((0 : Nat) : Int) (c2.length : Int) s (fun q j => (do
        let b ← rd c2 j
        let y ← divN (a ∩ b).card N
        let p12 ← wr q.1 q.2 y
        pure (p12, q.2 + 1) : Run (List K × Int))) = .error e → e = .write := by
    intro a s e h
    rcases loop_cases 0 c2.length (Nat.zero_le _) _ (fun _ _ => True) (fun _ _ _ _ _ _ _ => trivial) s trivial with
      ⟨s', h1, _⟩ | ⟨k, e', s', _, hk, _, h1, h2⟩
    · rw [h1] at h; cases h
    · rw [h2] at h
      have he : e' = e := by injection h
      subst he
      rw [rd_nat c2 k hk, ok_bind, divN_ok _ _ hN, ok_bind] at h1
      cases h3 : wr s'.1 s'.2 (((a ∩ c2[k]).card : K) / (N : K)) with
      | ok x => rw [h3, ok_bind] at h1; cases h1
      | error e2 =>
        rw [h3, err_bind] at h1
        have := (wr_err_kind h3).1
        rw [this] at h1
        injection h1 with h1
        exact h1.symm
  have hst : ∀ k, 0 ≤ k → k < c1.length → ∀ s s' : List K × List K × Int, (s.1.length = n1 ∧ k ≤ n1) →
      (fun (st : List K × List K × Int) (i : Int) => (do
        let a ← rd c1 i
        let x ← divN a.card N
        let p1 ← wr st.1 i x
        let r ← loop 0 c2.length (st.2.1, st.2.2) fun q j => do
          let b ← rd c2 j
          let y ← divN (a ∩ b).card N
          let p12 ← wr q.1 q.2 y
          pure (p12, q.2 + 1)
        pure (p1, r.1, r.2) : Run (List K × List K × Int))) s (k : Int) = .ok s' →
      (s'.1.length = n1 ∧ k + 1 ≤ n1) := by
    intro k _ hk s s' hs hstep
    simp only [rd_nat c1 k hk, ok_bind, divN_ok _ _ hN] at hstep
    obtain ⟨p, hp, h2⟩ := (bind_ok_iff _ _ _).1 hstep
    obtain ⟨r, _, h3⟩ := (bind_ok_iff _ _ _).1 h2
    have h4 : s' = (p, r.1, r.2) := by
      rw [pure_ok] at h3
      injection h3 with h3
      exact h3.symm
    unfold wr at hp
    split at hp
    · rename_i hb
      have hp' : s.1.set (k : Int).toNat ((c1[k].card : K) / (N : K)) = p := by injection hp
      refine ⟨?_, ?_⟩
      · rw [h4]
        show p.length = n1
        rw [← hp', List.length_set]
        exact hs.1
      · have := hb.2
        rw [hs.1] at this
        simp at this
        omega
    · cases hp
  rcases loop_cases 0 c1.length (Nat.zero_le _) (fun (st : List K × List K × Int) (i : Int) => (do
        let a ← rd c1 i
        let x ← divN a.card N
        let p1 ← wr st.1 i x
        let r ← loop 0 c2.length (st.2.1, st.2.2) fun q j => do
          let b ← rd c2 j
          let y ← divN (a ∩ b).card N
          let p12 ← wr q.1 q.2 y
          pure (p12, q.2 + 1)
        pure (p1, r.1, r.2) : Run (List K × List K × Int)))
      (fun i st => st.1.length = n1 ∧ i ≤ n1) hst (List.replicate n1 0, List.replicate (n1 * n2) 0, 0)
      ⟨by simp, Nat.zero_le _⟩ with ⟨s', h1, h2⟩ | ⟨k, e, s', _, hk, hI, h1, h2⟩
  · left
    exact ⟨h2.2, s', h1⟩
  · right
    refine h2.trans ?_
    congr 1
    rw [rd_nat c1 k hk, ok_bind, divN_ok _ _ hN, ok_bind] at h1
    cases h3 : wr s'.1 (k : Int) ((c1[k].card : K) / (N : K)) with
    | error e2 =>
      rw [h3, err_bind] at h1
      injection h1 with h1
      rw [← h1]
      exact (wr_err_kind h3).1
    | ok p =>
      rw [h3, ok_bind] at h1
      cases h4 : loop 0 (c2.length : Int) (s'.2.1, s'.2.2) (fun q j => (do
          let b ← rd c2 j
          let y ← divN (c1[k] ∩ b).card N
          let p12 ← wr q.1 q.2 y
          pure (p12, q.2 + 1) : Run (List K × Int))) with
      | ok r => rw [h4, ok_bind] at h1; cases h1
      | error e2 =>
        rw [h4, err_bind] at h1
        injection h1 with h1
        rw [← h1]
        exact hinner c1[k] _ e2 h4

theorem joint_zero (c1 c2 : List (Finset Nat)) (n1 n2 : Nat) (h : c1 ≠ []) :
    (jointRun c1 c2 0 n1 n2 : Run (List K × List K × Int)) = .error .zeroDivision := by
  unfold jointRun
  have hl : 0 < c1.length := List.length_pos_iff.2 h
  refine loop_fail 0 c1.length 0 (le_refl _) hl _ (fun _ _ => True) .zeroDivision
    (fun k _ hk => absurd hk (by omega)) ?_ _ trivial
  intro s _
  rw [rd_nat c1 0 hl, ok_bind]
  rfl

theorem marg_zero (c2 : List (Finset Nat)) (n2 : Nat) (h : c2 ≠ []) :
    (margRun c2 0 n2 : Run (List K)) = .error .zeroDivision := by
  unfold margRun
  have hl : 0 < c2.length := List.length_pos_iff.2 h
  refine loop_fail 0 c2.length 0 (le_refl _) hl _ (fun _ _ => True) .zeroDivision
    (fun k _ hk => absurd hk (by omega)) ?_ _ trivial
  intro s _
  rw [rd_nat c2 0 hl, ok_bind]
  rfl

theorem nmiRun_ok (lg : K → K) (c1 c2 : List (Finset Nat)) (N n1 n2 : Nat) (hN : N ≠ 0) (h1 : c1.length ≤ n1)
    (h2 : c2.length ≤ n2) :
    nmiRun lg c1 c2 N n1 n2 =
      if max (entropy lg (sizes c1 N)) (entropy lg (sizes c2 N)) = 0 then .error .zeroDivision else
        .ok ((entropy lg (sizes c1 N) + entropy lg (sizes c2 N) - entropy lg (interSizes c1 c2 N)) /
          max (entropy lg (sizes c1 N)) (entropy lg (sizes c2 N))) := by
  unfold nmiRun
  rw [joint_ok c1 c2 N n1 n2 hN h1 h2, ok_bind, margRun_ok c2 N n2 hN h2, ok_bind]
  have l1 : (filled n1 (sizes c1 N : List K)).length = n1 := filled_length _ _ (by simpa [sizes] using h1)
  have l2 : (filled n2 (sizes c2 N : List K)).length = n2 := filled_length _ _ (by simpa [sizes] using h2)
  have l12 : (filled (n1 * n2) (interSizes c1 c2 N : List K)).length = n1 * n2 := by
    apply filled_length
    have : (interSizes c1 c2 N : List K).length = c1.length * c2.length := by
      unfold interSizes
      rw [List.length_flatMap]
      simp
    rw [this]
    exact Nat.mul_le_mul h1 h2
  rw [entropyRun_ok lg _ n1 l1, ok_bind, entropyRun_ok lg _ n2 l2, ok_bind, entropyRun_ok lg _ (n1 * n2) l12, ok_bind,
    entropy_filled, entropy_filled, entropy_filled]

theorem nmiRun_err (lg : K → K) (c1 c2 : List (Finset Nat)) (N n1 n2 : Nat) (hN : N ≠ 0)
    (h : n1 < c1.length ∨ n2 < c2.length) : nmiRun lg c1 c2 N n1 n2 = .error .write := by
  unfold nmiRun
  rcases joint_cases (K := K) c1 c2 N n1 n2 hN with ⟨h1, r, hr⟩ | h1
  · rw [hr, ok_bind, margRun_err c2 N n2 hN (by omega)]
    rfl
  · rw [h1]
    rfl

theorem nmiRun_zero (lg : K → K) (c1 c2 : List (Finset Nat)) (n1 n2 : Nat) :
    nmiRun lg c1 c2 0 n1 n2 = .error .zeroDivision := by
  unfold nmiRun
  by_cases h1 : c1 = []
  · by_cases h2 : c2 = []
    · subst h1; subst h2
      have e1 : (jointRun [] [] 0 n1 n2 : Run (List K × List K × Int)) =
          .ok (List.replicate n1 0, List.replicate (n1 * n2) 0, 0) := rfl
      have e2 : (margRun [] 0 n2 : Run (List K)) = .ok (List.replicate n2 0) := rfl
      rw [e1, ok_bind, e2, ok_bind, entropyRun_ok lg _ n1 (by simp), ok_bind, entropyRun_ok lg _ n2 (by simp),
        ok_bind, entropyRun_ok lg _ (n1 * n2) (by simp), ok_bind, if_pos]
      simp [entropy]
    · subst h1
      have e1 : (jointRun [] c2 0 n1 n2 : Run (List K × List K × Int)) =
          .ok (List.replicate n1 0, List.replicate (n1 * n2) 0, 0) := rfl
      rw [e1, ok_bind, marg_zero c2 n2 h2]
      rfl
  · rw [joint_zero c1 c2 n1 n2 h1]
    rfl

end Verif.DenseMem
