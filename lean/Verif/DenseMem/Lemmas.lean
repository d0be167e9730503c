import Verif.DenseMem.Model
import Verif.Memory.Lemmas

/-!
# Lemmas about accesses to two-dimensional arrays
-/

set_option linter.dupNamespace false
set_option linter.unusedSectionVars false

namespace Verif.DenseMem

open Verif.Memory

variable {K : Type} [Field K] [LinearOrder K] [IsStrictOrderedRing K]

section loops
variable {σ : Type}

/-- A loop that keeps an invariant as long as it runs ends with the invariant, or one of its steps
fails. -/
theorem loop_cases (p q : Nat) (hpq : p ≤ q) (f : σ → Int → Run σ) (I : Nat → σ → Prop)
    (step : ∀ k, p ≤ k → k < q → ∀ s s', I k s → f s (k : Int) = .ok s' → I (k + 1) s')
    (s : σ) (h0 : I p s) :
    (∃ s', loop (p : Int) (q : Int) s f = .ok s' ∧ I q s') ∨
    ∃ k e s', p ≤ k ∧ k < q ∧ I k s' ∧ f s' (k : Int) = .error e ∧ loop (p : Int) (q : Int) s f = .error e := by
  rw [loop_nat]
  have key : ∀ n, p + n ≤ q →
      (∃ s', (List.range n).foldlM (fun s d => f s ((p + d : Nat) : Int)) s = .ok s' ∧ I (p + n) s') ∨
      ∃ k e s', p ≤ k ∧ k < q ∧ I k s' ∧ f s' (k : Int) = .error e ∧
        (List.range n).foldlM (fun s d => f s ((p + d : Nat) : Int)) s = .error e := by
    intro n
    induction n with
    | zero => intro _; exact Or.inl ⟨s, rfl, h0⟩
    | succ n ih =>
      intro hn
      rcases ih (by omega) with ⟨s1, h1, h2⟩ | ⟨k, e, s1, h1, h2, h3, h4, h5⟩
      · cases h3 : f s1 ((p + n : Nat) : Int) with
        | ok s2 =>
          left
          refine ⟨s2, ?_, step (p + n) (by omega) (by omega) s1 s2 h2 h3⟩
          rw [List.range_succ, List.foldlM_append, h1, ok_bind, List.foldlM_cons, h3]
          rfl
        | error e =>
          right
          refine ⟨p + n, e, s1, by omega, by omega, h2, h3, ?_⟩
          rw [List.range_succ, List.foldlM_append, h1, ok_bind, List.foldlM_cons, h3]
          rfl
      · right
        refine ⟨k, e, s1, h1, h2, h3, h4, ?_⟩
        rw [List.range_succ, List.foldlM_append, h5]
        rfl
  have := key (q - p) (by omega)
  rwa [show p + (q - p) = q by omega] at this

/-- A loop that ended has made every one of its steps. -/
theorem loop_ok_step (p q : Nat) (f : σ → Int → Run σ) (s s' : σ)
    (h : loop (p : Int) (q : Int) s f = .ok s') (k : Nat) (hpk : p ≤ k) (hk : k < q) :
    ∃ s1 s2, f s1 (k : Int) = .ok s2 := by
  rw [loop_nat] at h
  have key : ∀ n, p + n ≤ q → (∃ s', (List.range n).foldlM (fun s d => f s ((p + d : Nat) : Int)) s = .ok s') →
      k < p + n → ∃ s1 s2, f s1 (k : Int) = .ok s2 := by
    intro n
    induction n with
    | zero => intro _ _ hk; omega
    | succ n ih =>
      rintro hn ⟨s', hs⟩ hk
      rw [List.range_succ, List.foldlM_append] at hs
      cases h1 : (List.range n).foldlM (fun s d => f s ((p + d : Nat) : Int)) s with
      | error e => rw [h1, err_bind] at hs; cases hs
      | ok s1 =>
        rw [h1, ok_bind, List.foldlM_cons] at hs
        by_cases hkn : k = p + n
        · subst hkn
          cases h2 : f s1 ((p + n : Nat) : Int) with
          | error e => rw [h2, err_bind] at hs; cases hs
          | ok s2 => exact ⟨s1, s2, h2⟩
        · exact ih (by omega) ⟨s1, h1⟩ (by omega)
  exact key (q - p) (by omega) ⟨s', h⟩ (by omega)

/-- A loop whose step `m` fails after steps that succeed. -/
theorem loop_fail (p q m : Nat) (hpm : p ≤ m) (hmq : m < q) (f : σ → Int → Run σ) (I : Nat → σ → Prop)
    (e : Fault) (step : ∀ k, p ≤ k → k < m → ∀ s, I k s → ∃ s', f s (k : Int) = .ok s' ∧ I (k + 1) s')
    (fail : ∀ s, I m s → f s (m : Int) = .error e) (s : σ) (h0 : I p s) :
    loop (p : Int) (q : Int) s f = .error e := by
  obtain ⟨s1, h1, h2⟩ := loop_inv p m hpm f I step s h0
  rw [loop_nat] at h1 ⊢
  have hq : q - p = (m - p) + (1 + (q - m - 1)) := by omega
  rw [hq, List.range_add, List.foldlM_append, h1, ok_bind, Nat.add_comm 1, List.range_succ_eq_map]
  rw [List.map_cons, List.foldlM_cons]
  rw [show p + (m - p + 0) = m by omega, fail s1 h2]
  rfl

end loops

theorem bind_ok_iff {α β : Type} (x : Run α) (f : α → Run β) (b : β) :
    (x >>= f) = .ok b ↔ ∃ a, x = .ok a ∧ f a = .ok b := by
  cases x with
  | error e => simp [err_bind]
  | ok a => simp [ok_bind]

theorem rd_ok_iff {α : Type} (a : List α) (i : Int) (x : α) :
    rd a i = .ok x ↔ 0 ≤ i ∧ a[i.toNat]? = some x := by
  unfold rd
  split
  · rename_i h
    cases h2 : a[i.toNat]? with
    | none => simp
    | some y => simp [h]
  · rename_i h
    simp [h]

theorem rd_ok_lt {α : Type} {a : List α} {i : Int} {x : α} (h : rd a i = .ok x) : 0 ≤ i ∧ i < a.length := by
  obtain ⟨h1, h2⟩ := (rd_ok_iff a i x).1 h
  have := List.getElem?_eq_some_iff.1 h2
  obtain ⟨h3, _⟩ := this
  exact ⟨h1, by omega⟩

theorem rd_err {α : Type} {a : List α} {i : Int} (h : ¬ (0 ≤ i ∧ i < a.length)) : rd a i = .error .read := by
  cases h1 : rd a i with
  | ok x => exact absurd (rd_ok_lt h1) h
  | error e =>
    unfold rd at h1
    split at h1
    · split at h1 <;> simp_all
    · simp_all

theorem rd_ok {α : Type} (a : List α) (i : Int) (d : α) (h : 0 ≤ i ∧ i < a.length) :
    rd a i = .ok (a.getD i.toNat d) := by
  rw [rd_ok_iff]
  refine ⟨h.1, ?_⟩
  have : i.toNat < a.length := by omega
  simp [this]

theorem wr_err_kind {α : Type} {a : List α} {i : Int} {x : α} {e : Fault} (h : wr a i x = .error e) :
    e = .write ∧ ¬ (0 ≤ i ∧ i < a.length) := by
  unfold wr at h
  split at h
  · cases h
  · rename_i h1
    cases h
    refine ⟨rfl, fun h2 => h1 ⟨h2.1, by omega⟩⟩

theorem wr_err {α : Type} {a : List α} {i : Int} {x : α} (h : ¬ (0 ≤ i ∧ i < a.length)) :
    wr a i x = .error .write := by
  unfold wr
  rw [if_neg]
  intro h2
  exact h ⟨h2.1, by omega⟩

/-! ## Matrices -/

theorem Mat.WF.getRow {M : Mat K} (h : M.WF) (i : Nat) (hi : i < M.nr) :
    ∃ (hlt : i < M.rows.length), M.rows[i].length = M.nc := by
  have hlt : i < M.rows.length := by rw [h.len]; exact hi
  exact ⟨hlt, h.row _ (List.getElem_mem hlt)⟩

theorem rd2_ok {M : Mat K} (h : M.WF) (i j : Nat) (hi : i < M.nr) (hj : j < M.nc) :
    rd2 M (i : Int) (j : Int) = .ok (M.val i j) := by
  obtain ⟨hlt, hl⟩ := h.getRow i hi
  unfold rd2 Mat.val
  rw [rd_nat _ _ hlt, ok_bind, rd_nat _ _ (by rw [hl]; exact hj)]
  simp [hlt, hl, hj]

theorem rd2_ok_int {M : Mat K} (h : M.WF) (i j : Int) (hi : 0 ≤ i ∧ i < M.nr) (hj : 0 ≤ j ∧ j < M.nc) :
    rd2 M i j = .ok (M.val i.toNat j.toNat) := by
  have := rd2_ok h i.toNat j.toNat (by omega) (by omega)
  rwa [Int.toNat_of_nonneg hi.1, Int.toNat_of_nonneg hj.1] at this

theorem rd2_err {M : Mat K} (h : M.WF) (i j : Int)
    (hij : ¬ ((0 ≤ i ∧ i < M.nr) ∧ (0 ≤ j ∧ j < M.nc))) : rd2 M i j = .error .read := by
  unfold rd2
  by_cases hi : 0 ≤ i ∧ i < M.nr
  · obtain ⟨hlt, hl⟩ := h.getRow i.toNat (by omega)
    have := rd_nat M.rows i.toNat hlt
    rw [Int.toNat_of_nonneg hi.1] at this
    rw [this, ok_bind]
    apply rd_err
    rw [hl]
    exact fun hj => hij ⟨hi, hj⟩
  · rw [rd_err (by rw [h.len]; exact hi)]
    rfl

theorem wr2_ok {M : Mat K} (h : M.WF) (i j : Nat) (x : K) (hi : i < M.nr) (hj : j < M.nc) :
    ∃ M', wr2 M (i : Int) (j : Int) x = .ok M' ∧ M'.WF ∧ M'.nr = M.nr ∧ M'.nc = M.nc ∧
      ∀ a b, M'.val a b = if a = i ∧ b = j then x else M.val a b := by
  obtain ⟨hlt, hl⟩ := h.getRow i hi
  unfold wr2
  rw [rd_nat _ _ hlt, ok_bind, wr_nat _ _ _ (by rw [hl]; exact hj), ok_bind, wr_nat _ _ _ hlt, ok_bind]
  refine ⟨_, rfl, ⟨by simp [h.len], ?_⟩, rfl, rfl, ?_⟩
  · intro r hr
    rcases List.mem_or_eq_of_mem_set hr with h1 | h1
    · exact h.row r h1
    · rw [h1, List.length_set, hl]
  · intro a b
    unfold Mat.val
    by_cases ha : a = i
    · subst ha
      by_cases hb : b = j
      · subst hb; simp [hlt, hl, hj]
      · have hb' : ¬ j = b := fun h => hb h.symm
        simp only [hb, and_false, if_false]
        simp [hlt, List.getElem?_set, hb']
    · have ha' : ¬ i = a := fun h => ha h.symm
      simp [ha, List.getElem?_set, ha']

theorem zeros_wf (nr nc : Nat) : (zeros nr nc : Mat K).WF :=
  ⟨by simp [zeros], by intro r hr; simp [zeros, List.mem_replicate] at hr; simp [hr.2, zeros]⟩

theorem zeros_val (nr nc i j : Nat) : (zeros nr nc : Mat K).val i j = 0 := by
  unfold Mat.val zeros
  simp only [List.getD_eq_getElem?_getD, List.getElem?_replicate]
  split
  · simp only [Option.getD_some, List.getElem?_replicate]
    split <;> simp
  · simp

theorem ofFn_wf (nr nc : Nat) (f : Nat → Nat → K) : (Mat.ofFn nr nc f).WF :=
  ⟨by simp [Mat.ofFn], by
    intro r hr
    simp only [Mat.ofFn, List.mem_map] at hr
    obtain ⟨_, _, rfl⟩ := hr
    simp [Mat.ofFn]⟩

theorem ofFn_val (nr nc : Nat) (f : Nat → Nat → K) (i j : Nat) (hi : i < nr) (hj : j < nc) :
    (Mat.ofFn nr nc f).val i j = f i j := by
  simp [Mat.val, Mat.ofFn, hi, hj]

/-- Matrices of the same shape with the same entries are equal. -/
theorem Mat.ext' {A B : Mat K} (hA : A.WF) (hB : B.WF) (h1 : A.nr = B.nr) (h2 : A.nc = B.nc)
    (h : ∀ i j, i < A.nr → j < A.nc → A.val i j = B.val i j) : A = B := by
  have hr : A.rows = B.rows := by
    apply List.ext_getElem (by rw [hA.len, hB.len, h1])
    intro i hi hi'
    have hiA : i < A.nr := by rw [← hA.len]; exact hi
    obtain ⟨_, l1⟩ := hA.getRow i hiA
    obtain ⟨_, l2⟩ := hB.getRow i (h1 ▸ hiA)
    apply List.ext_getElem (by rw [l1, l2, h2])
    intro j hj hj'
    have := h i j hiA (by rw [← l1]; exact hj)
    unfold Mat.val at this
    simpa [hi, hi', hj, hj'] using this
  cases A; cases B; simp_all

end Verif.DenseMem
