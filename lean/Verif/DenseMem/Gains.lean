import Verif.DenseMem.Lemmas
import Mathlib.Algebra.BigOperators.Group.List.Basic

/-!
# Gains and the autocovariance matrix
-/

set_option linter.dupNamespace false
set_option linter.unusedSectionVars false

namespace Verif.DenseMem

open Verif.Memory

variable {K : Type} [Field K] [LinearOrder K] [IsStrictOrderedRing K]

/-- An index inside an axis of length `n`. -/
def Inside (n : Nat) (i : Int) : Prop := 0 ≤ i ∧ i < n

instance (n : Nat) (i : Int) : Decidable (Inside n i) := by unfold Inside; infer_instance

section gains

/-- The step of the two sums. -/
theorem step_eq (S : Mat K) (k : Int) (ix : List Int) (g : K → K → K → K) (s : K) (d : Nat) (hd : d < ix.length) :
    (do
      let a ← rd ix (d : Int)
      let x ← rd2 S k a
      let b ← rd ix (d : Int)
      let y ← rd2 S b k
      pure (g s x y) : Run K) = (do
      let x ← rd2 S k ix[d]
      let y ← rd2 S ix[d] k
      pure (g s x y)) := by
  rw [rd_nat _ _ hd, ok_bind]
  rfl

theorem fold_ok {S : Mat K} (h : S.WF) (hsq : S.nc = S.nr) (k : Int) (hk : Inside S.nr k)
    (g : K → K → K → K) (ix : List Int) (hix : ∀ a ∈ ix, Inside S.nr a) :
    ∀ s, ix.foldlM (fun s a => (do
      let x ← rd2 S k a
      let y ← rd2 S a k
      pure (g s x y) : Run K)) s =
    .ok (ix.foldl (fun s a => g s (S.val k.toNat a.toNat) (S.val a.toNat k.toNat)) s) := by
  induction ix with
  | nil => intro s; rfl
  | cons a ix ih =>
    intro s
    have ha := hix a (by simp)
    rw [List.foldlM_cons, rd2_ok_int h k a hk (by rw [hsq]; exact ha), ok_bind,
      rd2_ok_int h a k ha (by rw [hsq]; exact hk), ok_bind, pure_ok, ok_bind]
    exact ih (fun b hb => hix b (by simp [hb])) _

theorem fold_err {S : Mat K} (h : S.WF) (hsq : S.nc = S.nr) (k : Int) (hk : Inside S.nr k)
    (g : K → K → K → K) (ix : List Int) (hix : ¬ ∀ a ∈ ix, Inside S.nr a) :
    ∀ s, ix.foldlM (fun s a => (do
      let x ← rd2 S k a
      let y ← rd2 S a k
      pure (g s x y) : Run K)) s = .error .read := by
  induction ix with
  | nil => exact absurd (by simp) hix
  | cons a ix ih =>
    intro s
    rw [List.foldlM_cons]
    by_cases ha : Inside S.nr a
    · rw [rd2_ok_int h k a hk (by rw [hsq]; exact ha), ok_bind,
        rd2_ok_int h a k ha (by rw [hsq]; exact hk), ok_bind, pure_ok, ok_bind]
      apply ih
      intro h2
      apply hix
      intro b hb
      rcases List.mem_cons.1 hb with rfl | hb
      · exact ha
      · exact h2 b hb
    · rw [rd2_err h k a (by rw [hsq]; exact fun h2 => ha h2.2)]
      rfl

theorem loop_fold (S : Mat K) (k : Int) (ix : List Int) (g : K → K → K → K) :
    loop 0 (ix.length : Int) 0 (fun s i => (do
      let a ← rd ix i
      let x ← rd2 S k a
      let b ← rd ix i
      let y ← rd2 S b k
      pure (g s x y) : Run K)) = ix.foldlM (fun s a => (do
      let x ← rd2 S k a
      let y ← rd2 S a k
      pure (g s x y) : Run K)) 0 := by
  rw [loop_zero]
  apply foldlM_range
  intro d hd s
  exact step_eq S k ix g s d hd

theorem fold_k_err {S : Mat K} (h : S.WF) (k : Int) (hk : ¬ Inside S.nr k)
    (g : K → K → K → K) (ix : List Int) :
    (ix.foldlM (fun s a => (do
      let x ← rd2 S k a
      let y ← rd2 S a k
      pure (g s x y) : Run K)) 0 >>= fun s => do
      let d ← rd2 S k k
      pure (s + d)) = .error .read := by
  cases ix with
  | nil =>
    rw [List.foldlM_nil, pure_ok, ok_bind, rd2_err h k k (fun h2 => hk h2.1)]
    rfl
  | cons a ix =>
    rw [List.foldlM_cons, rd2_err h k a (fun h2 => hk h2.1)]
    rfl

theorem foldl_add (f g : Int → K) (ix : List Int) : ∀ s : K,
    ix.foldl (fun s a => s + f a + g a) s = s + (ix.map fun a => f a + g a).sum := by
  induction ix with
  | nil => intro s; simp
  | cons a ix ih => intro s; rw [List.foldl_cons, ih, List.map_cons, List.sum_cons]; ring

theorem foldl_sub (f g : Int → K) (ix : List Int) : ∀ s : K,
    ix.foldl (fun s a => s - f a - g a) s = s - (ix.map fun a => f a + g a).sum := by
  induction ix with
  | nil => intro s; simp
  | cons a ix ih => intro s; rw [List.foldl_cons, ih, List.map_cons, List.sum_cons]; ring

theorem stoRun_ok {S : Mat K} (h : S.WF) (hsq : S.nc = S.nr) (k : Int) (hk : Inside S.nr k)
    (ix : List Int) (hix : ∀ a ∈ ix, Inside S.nr a) :
    stoRun S k ix = .ok ((ix.map fun a => S.val k.toNat a.toNat + S.val a.toNat k.toNat).sum +
      S.val k.toNat k.toNat) := by
  unfold stoRun
  rw [loop_fold S k ix (fun s x y => s + x + y), fold_ok h hsq k hk (fun s x y => s + x + y) ix hix, ok_bind,
    rd2_ok_int h k k hk (by rw [hsq]; exact hk), ok_bind, pure_ok, foldl_add, zero_add]

theorem soutRun_ok {S : Mat K} (h : S.WF) (hsq : S.nc = S.nr) (k : Int) (hk : Inside S.nr k)
    (ix : List Int) (hix : ∀ a ∈ ix, Inside S.nr a) :
    soutRun S k ix = .ok (S.val k.toNat k.toNat -
      (ix.map fun a => S.val k.toNat a.toNat + S.val a.toNat k.toNat).sum) := by
  unfold soutRun
  rw [loop_fold S k ix (fun s x y => s - x - y), fold_ok h hsq k hk (fun s x y => s - x - y) ix hix, ok_bind,
    rd2_ok_int h k k hk (by rw [hsq]; exact hk), ok_bind, pure_ok, foldl_sub]
  congr 1
  ring

theorem stoRun_err {S : Mat K} (h : S.WF) (hsq : S.nc = S.nr) (k : Int) (ix : List Int)
    (hb : ¬ (Inside S.nr k ∧ ∀ a ∈ ix, Inside S.nr a)) : stoRun S k ix = .error .read := by
  unfold stoRun
  rw [loop_fold S k ix (fun s x y => s + x + y)]
  by_cases hk : Inside S.nr k
  · rw [fold_err h hsq k hk (fun s x y => s + x + y) ix (fun h2 => hb ⟨hk, h2⟩)]
    rfl
  · exact fold_k_err h k hk _ ix

theorem soutRun_err {S : Mat K} (h : S.WF) (hsq : S.nc = S.nr) (k : Int) (ix : List Int)
    (hb : ¬ (Inside S.nr k ∧ ∀ a ∈ ix, Inside S.nr a)) : soutRun S k ix = .error .read := by
  unfold soutRun
  rw [loop_fold S k ix (fun s x y => s - x - y)]
  by_cases hk : Inside S.nr k
  · rw [fold_err h hsq k hk (fun s x y => s - x - y) ix (fun h2 => hb ⟨hk, h2⟩)]
    rfl
  · exact fold_k_err h k hk _ ix

/-! ### numpy -/

/-- The position numpy gives to an index. -/
def wrap (n : Nat) (i : Int) : Nat := if 0 ≤ i then i.toNat else (i + n).toNat

/-- An index numpy accepts. -/
def Accepted (n : Nat) (i : Int) : Prop := -(n : Int) ≤ i ∧ i < n

theorem npIdx_ok (n : Nat) (i : Int) (h : Accepted n i) : npIdx n i = .ok (wrap n i) := by
  obtain ⟨h1, h2⟩ := h
  unfold npIdx wrap
  by_cases h0 : 0 ≤ i
  · rw [if_pos ⟨h0, h2⟩, if_pos h0]
  · rw [if_neg (fun h => h0 h.1), if_pos ⟨h1, by omega⟩, if_neg h0]

theorem npIdx_err (n : Nat) (i : Int) (h : ¬ Accepted n i) : npIdx n i = .error .indexError := by
  unfold npIdx
  rw [if_neg, if_neg]
  · intro h2; exact h ⟨h2.1, by omega⟩
  · intro h2; exact h ⟨by omega, h2.2⟩

theorem wrap_inside {n : Nat} {i : Int} (h : Inside n i) : wrap n i = i.toNat := if_pos h.1

theorem npAt_ok (S : Mat K) (hsq : S.nc = S.nr) (i j : Int) (hi : Accepted S.nr i) (hj : Accepted S.nr j) :
    npAt S i j = .ok (S.val (wrap S.nr i) (wrap S.nr j)) := by
  unfold npAt
  rw [npIdx_ok _ _ hi, hsq, npIdx_ok _ _ hj]
  rfl

theorem npAt_err (S : Mat K) (hsq : S.nc = S.nr) (i j : Int) (h : ¬ (Accepted S.nr i ∧ Accepted S.nr j)) :
    npAt S i j = .error .indexError := by
  unfold npAt
  by_cases hi : Accepted S.nr i
  · rw [npIdx_ok _ _ hi, hsq, npIdx_err _ _ (fun hj => h ⟨hi, hj⟩)]
    rfl
  · rw [npIdx_err _ _ hi]
    rfl

theorem mapM_ok {α β : Type} (f : α → Except Exc β) (g : α → β) (l : List α) (h : ∀ a ∈ l, f a = .ok (g a)) :
    l.mapM f = .ok (l.map g) := by
  induction l with
  | nil => rfl
  | cons a l ih =>
    rw [List.mapM_cons, h a (by simp), ih fun b hb => h b (by simp [hb])]
    rfl

theorem mapM_err {α β : Type} (f : α → Except Exc β) (l : List α)
    (h : ∀ a ∈ l, ∀ e, f a = .error e → e = .indexError) (hbad : ∃ a ∈ l, f a = .error .indexError) :
    l.mapM f = .error .indexError := by
  induction l with
  | nil => obtain ⟨a, ha, _⟩ := hbad; cases ha
  | cons a l ih =>
    rw [List.mapM_cons]
    cases h1 : f a with
    | error e => rw [h a (by simp) e h1]; rfl
    | ok b =>
      rw [ih (fun c hc => h c (by simp [hc]))]
      · rfl
      · obtain ⟨c, hc, h2⟩ := hbad
        rcases List.mem_cons.1 hc with rfl | hc
        · rw [h1] at h2; cases h2
        · exact ⟨c, hc, h2⟩

theorem npSum_ok (S : Mat K) (hsq : S.nc = S.nr) (k : Int) (hk : Accepted S.nr k) (ix : List Int)
    (hix : ∀ a ∈ ix, Accepted S.nr a) :
    npSto S k ix = .ok ((ix.map fun a => S.val (wrap S.nr k) (wrap S.nr a) + S.val (wrap S.nr a) (wrap S.nr k)).sum +
      S.val (wrap S.nr k) (wrap S.nr k)) ∧
    npSout S k ix = .ok (S.val (wrap S.nr k) (wrap S.nr k) -
      (ix.map fun a => S.val (wrap S.nr k) (wrap S.nr a) + S.val (wrap S.nr a) (wrap S.nr k)).sum) := by
  have h1 := mapM_ok (fun a => npAt S k a) (fun a => S.val (wrap S.nr k) (wrap S.nr a)) ix
    fun a ha => npAt_ok S hsq k a hk (hix a ha)
  have h2 := mapM_ok (fun a => npAt S a k) (fun a => S.val (wrap S.nr a) (wrap S.nr k)) ix
    fun a ha => npAt_ok S hsq a k (hix a ha) hk
  have h3 := npAt_ok S hsq k k hk hk
  unfold npSto npSout
  rw [h1, h2, h3, List.sum_map_add]
  refine ⟨rfl, ?_⟩
  show Except.ok _ = Except.ok _
  congr 1
  ring

theorem npSum_err (S : Mat K) (hsq : S.nc = S.nr) (k : Int) (ix : List Int)
    (hb : ¬ (Accepted S.nr k ∧ ∀ a ∈ ix, Accepted S.nr a)) :
    npSto S k ix = .error .indexError ∧ npSout S k ix = .error .indexError := by
  have herr : ∀ i j e, npAt S i j = .error e → e = .indexError := by
    intro i j e h
    by_cases h1 : Accepted S.nr i ∧ Accepted S.nr j
    · rw [npAt_ok S hsq i j h1.1 h1.2] at h; cases h
    · rw [npAt_err S hsq i j h1] at h; cases h; rfl
  unfold npSto npSout
  by_cases hk : Accepted S.nr k
  · have h2 : ∃ a ∈ ix, ¬ Accepted S.nr a := by
      by_contra h3
      push Not at h3
      exact hb ⟨hk, h3⟩
    obtain ⟨a, ha, h3⟩ := h2
    rw [mapM_err (fun a => npAt S k a) ix (fun a _ e he => herr _ _ e he)
      ⟨a, ha, npAt_err S hsq k a fun h4 => h3 h4.2⟩]
    exact ⟨rfl, rfl⟩
  · cases ix with
    | nil =>
      have := npAt_err S hsq k k fun h => hk h.1
      simp only [List.mapM_nil]
      rw [this]
      exact ⟨rfl, rfl⟩
    | cons a ix =>
      rw [mapM_err (fun a => npAt S k a) (a :: ix) (fun a _ e he => herr _ _ e he)
        ⟨a, by simp, npAt_err S hsq k a fun h4 => hk h4.1⟩]
      exact ⟨rfl, rfl⟩

end gains

/-! ## The autocovariance matrix -/

/-- The state of the double loop before `(i, j)`. -/
structure SInv (p1 p2 : List K) (T : Mat K) (i j : Nat) (S : Mat K) : Prop where
  wf : S.WF
  nr : S.nr = T.nr
  nc : S.nc = T.nc
  val : ∀ a b, S.val a b = if a < i ∧ b < T.nc ∨ a = i ∧ b < j then
    p1.getD a 0 * T.val a b - p1.getD a 0 * p2.getD b 0 else 0

theorem S_step {p1 p2 : List K} {T : Mat K} (hT : T.WF) (i j : Nat) (hi : i < T.nr) (hj : j < T.nc)
    (h1 : i < p1.length) (h2 : j < p2.length) (S : Mat K) (hS : SInv p1 p2 T i j S) :
    ∃ S', (do
      let a ← rd p1 (i : Int)
      let t ← rd2 T (i : Int) (j : Int)
      let a' ← rd p1 (i : Int)
      let b ← rd p2 (j : Int)
      wr2 S (i : Int) (j : Int) (a * t - a' * b) : Run (Mat K)) = .ok S' ∧ SInv p1 p2 T i (j + 1) S' := by
  rw [rd_nat _ _ h1, ok_bind, rd2_ok hT i j hi hj, ok_bind, ok_bind, rd_nat _ _ h2, ok_bind]
  obtain ⟨S', e, w, r, c, v⟩ := wr2_ok hS.wf i j (p1[i] * T.val i j - p1[i] * p2[j]) (hS.nr ▸ hi) (hS.nc ▸ hj)
  refine ⟨S', e, w, r.trans hS.nr, c.trans hS.nc, ?_⟩
  intro a b
  rw [v, hS.val]
  by_cases hab : a = i ∧ b = j
  · obtain ⟨rfl, rfl⟩ := hab
    simp [h1, h2]
  · rw [if_neg hab]
    congr 1
    apply propext
    omega

theorem SInv.next {p1 p2 : List K} {T : Mat K} {i : Nat} {S : Mat K} (h : SInv p1 p2 T i T.nc S) :
    SInv p1 p2 T (i + 1) 0 S := by
  refine ⟨h.wf, h.nr, h.nc, ?_⟩
  intro a b
  rw [h.val]
  congr 1
  apply propext
  omega

theorem SInv.zero (p1 p2 : List K) (T : Mat K) : SInv p1 p2 T 0 0 (zeros T.nr T.nc) := by
  refine ⟨zeros_wf _ _, rfl, rfl, ?_⟩
  intro a b
  rw [zeros_val, if_neg (by omega)]

/-- One row. -/
theorem S_row {p1 p2 : List K} {T : Mat K} (hT : T.WF) (i : Nat) (hi : i < T.nr)
    (h1 : i < p1.length) (h2 : T.nc ≤ p2.length) (S : Mat K) (hS : SInv p1 p2 T i 0 S) :
    ∃ S', loop (0 : Nat) (T.nc : Int) S (fun S j => (do
      let a ← rd p1 (i : Int)
      let t ← rd2 T (i : Int) j
      let a' ← rd p1 (i : Int)
      let b ← rd p2 j
      wr2 S (i : Int) j (a * t - a' * b) : Run (Mat K))) = .ok S' ∧ SInv p1 p2 T (i + 1) 0 S' := by
  have key : ∃ S', loop ((0 : Nat) : Int) (T.nc : Int) S (fun S j => (do
      let a ← rd p1 (i : Int)
      let t ← rd2 T (i : Int) j
      let a' ← rd p1 (i : Int)
      let b ← rd p2 j
      wr2 S (i : Int) j (a * t - a' * b) : Run (Mat K))) = .ok S' ∧ SInv p1 p2 T i T.nc S' := by
    refine loop_inv 0 T.nc (Nat.zero_le _) _ (fun j S => SInv p1 p2 T i j S) ?_ S hS
    intro j _ hj S hS
    exact S_step hT i j hi hj h1 (by omega) S hS
  obtain ⟨S', e, h⟩ := key
  exact ⟨S', e, h.next⟩

theorem computeSRun_ok {p1 p2 : List K} {T : Mat K} (hT : T.WF)
    (h1 : T.nc = 0 ∨ T.nr ≤ p1.length) (h2 : T.nr = 0 ∨ T.nc ≤ p2.length) :
    computeSRun p1 p2 T =
      .ok (Mat.ofFn T.nr T.nc fun i j => p1.getD i 0 * T.val i j - p1.getD i 0 * p2.getD j 0) := by
  unfold computeSRun
  have key : ∃ S, loop ((0 : Nat) : Int) (T.nr : Int) (zeros T.nr T.nc) (fun S i =>
      loop ((0 : Nat) : Int) (T.nc : Int) S fun S j => (do
      let a ← rd p1 i
      let t ← rd2 T i j
      let a' ← rd p1 i
      let b ← rd p2 j
      wr2 S i j (a * t - a' * b) : Run (Mat K))) = .ok S ∧ SInv p1 p2 T T.nr 0 S := by
    apply loop_inv 0 T.nr (Nat.zero_le _) _ (fun i S => SInv p1 p2 T i 0 S)
    · intro i _ hi S hS
      rcases h1 with h1 | h1
      · rw [h1]
        refine ⟨S, rfl, ?_⟩
        have hS' := hS
        rw [← h1] at hS'
        exact SInv.next hS'
      · exact S_row hT i hi (by omega) (by omega) S hS
    · exact SInv.zero p1 p2 T
  obtain ⟨S, e, h⟩ := key
  refine Eq.trans e ?_
  congr 1
  apply Mat.ext' h.wf (ofFn_wf _ _ _) h.nr h.nc
  intro i j hi hj
  have hi' : i < T.nr := h.nr ▸ hi
  have hj' : j < T.nc := h.nc ▸ hj
  rw [h.val, ofFn_val _ _ _ _ _ hi' hj', if_pos (Or.inl ⟨hi', hj'⟩)]

/-- Too short distributions are read outside. -/
theorem computeSRun_err {p1 p2 : List K} {T : Mat K} (hT : T.WF) (hr : 0 < T.nr) (hc : 0 < T.nc)
    (hb : p1.length < T.nr ∨ p2.length < T.nc) : computeSRun p1 p2 T = .error .read := by
  unfold computeSRun
  by_cases h2 : p2.length < T.nc
  · -- the first row fails
    refine loop_fail 0 T.nr 0 (le_refl _) hr _ (fun _ S => SInv p1 p2 T 0 0 S) .read
      (fun k _ hk => absurd hk (by omega)) ?_ _ (SInv.zero p1 p2 T)
    intro S hS
    by_cases h1 : 0 < p1.length
    · refine loop_fail 0 T.nc p2.length (Nat.zero_le _) h2 _ (fun j S => SInv p1 p2 T 0 j S) .read ?_ ?_ S hS
      · intro j _ hj S hS
        exact S_step hT 0 j hr (by omega) h1 hj S hS
      · intro S hS
        rw [rd_nat _ _ h1, ok_bind, rd2_ok hT 0 _ hr h2, ok_bind, ok_bind, rd_nat_err _ _ (le_refl _)]
        rfl
    · refine loop_fail 0 T.nc 0 (le_refl _) hc _ (fun j S => SInv p1 p2 T 0 j S) .read
        (fun k _ hk => absurd hk (by omega)) ?_ S hS
      intro S hS
      rw [rd_nat_err _ _ (by omega)]
      rfl
  · have h1 : p1.length < T.nr := by rcases hb with h | h; exacts [h, absurd h h2]
    refine loop_fail 0 T.nr p1.length (Nat.zero_le _) h1 _ (fun i S => SInv p1 p2 T i 0 S) .read ?_ ?_ _
      (SInv.zero p1 p2 T)
    · intro i _ hi S hS
      exact S_row hT i (by omega) hi (by omega) S hS
    · intro S hS
      refine loop_fail 0 T.nc 0 (le_refl _) hc _ (fun j S => SInv p1 p2 T p1.length j S) .read
        (fun k _ hk => absurd hk (by omega)) ?_ S hS
      intro S hS
      rw [rd_nat_err _ _ (le_refl _)]
      rfl

end Verif.DenseMem
