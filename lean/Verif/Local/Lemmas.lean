import Verif.Local.Spec
import Verif.Causal.Lemmas
import Verif.Noise.Walks

/-!
# Walks that see the same contacts
-/

set_option linter.dupNamespace false
set_option linter.unusedSectionVars false

namespace Verif.Local

open Verif.TempNet Verif.Trans Verif.Flow Verif.EndToEnd Verif.Average Verif.Groups Verif.Noise Verif.Causal Finset NormedSpace

open scoped Nat

/-! ## Exponentials of matrices of different size -/

theorem pow_embed {n n' : Nat} {B B' : Mat ℝ} {R : Nat → Prop} {J : Mat ℝ}
    (hc : ∀ i < n, R i → ∀ j < n, B i j ≠ 0 → R j)
    (hr : ∀ i < n, R i → ∀ m < n', ∑ j ∈ range n, B i j * J j m = ∑ k ∈ range n', J i k * B' k m) (q : ℕ) :
    ∀ i : Fin n, R i → ∀ m : Fin n', ∑ j : Fin n, ((Matrix.of fun a b : Fin n => B a b) ^ q) i j * J j m =
      ∑ k : Fin n', J i k * ((Matrix.of fun a b : Fin n' => B' a b) ^ q) k m := by
  induction q with
  | zero =>
    intro i _ m
    simp [Matrix.one_apply]
  | succ q ih =>
    intro i hi m
    have e1 : ∑ j : Fin n, ((Matrix.of fun a b : Fin n => B a b) ^ (q + 1)) i j * J j m =
        ∑ a : Fin n, B i a * ∑ k : Fin n', J a k * ((Matrix.of fun a b : Fin n' => B' a b) ^ q) k m := by
      simp only [pow_succ', Matrix.mul_apply, sum_mul]
      rw [sum_comm]
      refine sum_congr rfl fun a _ => ?_
      by_cases h0 : B i a = 0
      · simp [h0]
      · rw [← ih a (hc i i.2 hi a a.2 h0) m, mul_sum]
        exact sum_congr rfl fun j _ => by rw [Matrix.of_apply, mul_assoc]
    rw [e1]
    have e2 : ∀ k : Fin n', ∑ a : Fin n, B i a * J a k = ∑ b : Fin n', J i b * B' b k := by
      intro k
      have := hr i i.2 hi k k.2
      rwa [sum_range, sum_range] at this
    simp only [pow_succ', Matrix.mul_apply, mul_sum, Matrix.of_apply]
    rw [sum_comm]
    calc ∑ k : Fin n', ∑ a : Fin n, B i a * (J a k * ((Matrix.of fun a b : Fin n' => B' a b) ^ q) k m)
        = ∑ k : Fin n', (∑ a : Fin n, B i a * J a k) * ((Matrix.of fun a b : Fin n' => B' a b) ^ q) k m :=
          sum_congr rfl fun k _ => by rw [sum_mul]; exact sum_congr rfl fun a _ => by ring
      _ = ∑ k : Fin n', ∑ b : Fin n', J i b * (B' b k * ((Matrix.of fun a b : Fin n' => B' a b) ^ q) k m) :=
          sum_congr rfl fun k _ => by rw [e2, sum_mul]; exact sum_congr rfl fun a _ => by ring
      _ = _ := by rw [sum_comm]

/-- If two generators act alike on the nodes that can be visited, so do their exponentials. -/
theorem expm_embed {n n' : Nat} {B B' : Mat ℝ} {R : Nat → Prop} {J : Mat ℝ}
    (hc : ∀ i < n, R i → ∀ j < n, B i j ≠ 0 → R j)
    (hr : ∀ i < n, R i → ∀ m < n', ∑ j ∈ range n, B i j * J j m = ∑ k ∈ range n', J i k * B' k m) :
    ∀ i < n, R i → ∀ m < n', ∑ j ∈ range n, expm n B i j * J j m = ∑ k ∈ range n', J i k * expm n' B' k m := by
  intro i hi hR m hm
  rw [sum_range, sum_range]
  have h1 : HasSum (fun q : ℕ => ∑ j : Fin n, ((q ! : ℝ)⁻¹ * ((Matrix.of fun a b : Fin n => B a b) ^ q) ⟨i, hi⟩ j) * J j m)
      (∑ j : Fin n, expm n B i j * J j m) := by
    refine hasSum_sum fun j _ => ?_
    have : expm n B i j = exp (Matrix.of fun a b : Fin n => B a b) ⟨i, hi⟩ j := by
      unfold expm
      rw [dif_pos ⟨hi, j.2⟩]
    rw [this]
    exact (hasSum_exp_apply _ _ _).mul_right _
  have h2 : HasSum (fun q : ℕ => ∑ k : Fin n', J i k * ((q ! : ℝ)⁻¹ * ((Matrix.of fun a b : Fin n' => B' a b) ^ q) k ⟨m, hm⟩))
      (∑ k : Fin n', J i k * expm n' B' k m) := by
    refine hasSum_sum fun k _ => ?_
    have : expm n' B' k m = exp (Matrix.of fun a b : Fin n' => B' a b) k ⟨m, hm⟩ := by
      unfold expm
      rw [dif_pos ⟨k.2, hm⟩]
    rw [this]
    exact (hasSum_exp_apply _ _ _).mul_left _
  have e : ∀ q : ℕ, ∑ j : Fin n, ((q ! : ℝ)⁻¹ * ((Matrix.of fun a b : Fin n => B a b) ^ q) ⟨i, hi⟩ j) * J j m =
      ∑ k : Fin n', J i k * ((q ! : ℝ)⁻¹ * ((Matrix.of fun a b : Fin n' => B' a b) ^ q) k ⟨m, hm⟩) := by
    intro q
    have := pow_embed hc hr q ⟨i, hi⟩ hR ⟨m, hm⟩
    calc _ = (q ! : ℝ)⁻¹ * ∑ j : Fin n, ((Matrix.of fun a b : Fin n => B a b) ^ q) ⟨i, hi⟩ j * J j m := by
          rw [mul_sum]; exact sum_congr rfl fun j _ => by ring
      _ = _ := by
          rw [this, mul_sum]
          exact sum_congr rfl fun j _ => by ring
  exact h1.unique ((funext e : _ = _) ▸ h2)

/-! ## Generators on two lists of labels -/

variable {L : Type} [LinearOrder L] {evs evs' : List (Event L ℝ)} {nodes nodes' : List L}

theorem nodup_of (h : NodesOf evs nodes) : nodes.Nodup := h.1.imp fun h => h.ne

/-- The same label in both lists. -/
def same (nodes nodes' : List L) : Mat ℝ := fun j m => if nodes[j]? = nodes'[m]? then 1 else 0

theorem same_some {j m : Nat} (hj : j < nodes.length) (hm : m < nodes'.length) :
    same nodes nodes' j m = if nodes[j] = nodes'[m] then 1 else 0 := by
  unfold same
  rw [List.getElem?_eq_getElem hj, List.getElem?_eq_getElem hm]
  simp only [Option.some_inj]

theorem sum_same_left (hd : nodes.Nodup) (f : Nat → ℝ) {j m : Nat} (hj : j < nodes.length) (hm : m < nodes'.length) (e : nodes[j] = nodes'[m]) :
    ∑ a ∈ range nodes.length, f a * same nodes nodes' a m = f j := by
  rw [sum_eq_single_of_mem j (mem_range.2 hj), same_some hj hm, if_pos e, mul_one]
  intro b hb hne
  have hb := mem_range.1 hb
  rw [same_some hb hm, if_neg, mul_zero]
  intro hbm
  exact hne ((List.Nodup.getElem_inj_iff hd).1 (hbm.trans e.symm))

theorem sum_same_none (f : Nat → ℝ) {m : Nat} (hm : m < nodes'.length) (e : nodes'[m] ∉ nodes) :
    ∑ a ∈ range nodes.length, f a * same nodes nodes' a m = 0 := by
  refine sum_eq_zero fun a ha => ?_
  have ha := mem_range.1 ha
  rw [same_some ha hm, if_neg, mul_zero]
  intro h
  exact e (h ▸ List.getElem_mem ha)

theorem sum_same_right (hd : nodes'.Nodup) (f : Nat → ℝ) {j m : Nat} (hj : j < nodes.length) (hm : m < nodes'.length) (e : nodes[j] = nodes'[m]) :
    ∑ a ∈ range nodes'.length, same nodes nodes' j a * f a = f m := by
  rw [sum_eq_single_of_mem m (mem_range.2 hm), same_some hj hm, if_pos e, one_mul]
  intro b hb hne
  have hb := mem_range.1 hb
  rw [same_some hj hb, if_neg, zero_mul]
  intro hbm
  exact hne ((List.Nodup.getElem_inj_iff hd).1 (hbm.symm.trans e))

theorem touch_symm {u : ℝ} {x y : L} (h : Touch evs u x y) : Touch evs u y x := by
  obtain ⟨e, he, h1, h2, h3⟩ := h
  exact ⟨e, he, h1, h2, h3.symm⟩

open Classical in
/-- The number of contacts of a label does not depend on the list of labels. -/
theorem degree_labels (hn : NodesOf evs nodes) (u : ℝ) {i : Nat} (hi : i < nodes.length) :
    degree nodes.length (InContact evs nodes u) i = {z | Touch evs u nodes[i] z}.ncard := by
  unfold degree
  rw [← Set.ncard_coe_finset]
  refine Set.ncard_congr (fun j hj => nodes[j]'(by simpa using (Finset.mem_filter.1 (Finset.mem_coe.1 hj)).1)) ?_ ?_ ?_
  · intro j hj
    obtain ⟨h1, h2⟩ := Finset.mem_filter.1 (Finset.mem_coe.1 hj)
    exact (touch_contact hi (mem_range.1 h1)).1 h2
  · intro a b ha hb h
    exact (List.Nodup.getElem_inj_iff (nodup_of hn)).1 h
  · intro z hz
    obtain ⟨j, hj, rfl⟩ := List.getElem_of_mem (touch_mem hn hz)
    exact ⟨j, Finset.mem_coe.2 (Finset.mem_filter.2 ⟨mem_range.2 hj, (touch_contact hi hj).2 hz⟩), rfl⟩

/-- A label that has the same contacts in both tables has the same row in both generators. -/
theorem gen_same (hn : NodesOf evs nodes) (hn' : NodesOf evs' nodes') {u : ℝ} {i k : Nat} (hi : i < nodes.length) (hk : k < nodes'.length)
    (e : nodes[i] = nodes'[k]) (hz : ∀ z, Touch evs u nodes[i] z ↔ Touch evs' u nodes[i] z) {m : Nat} (hm : m < nodes'.length) :
    ∑ j ∈ range nodes.length, gen evs nodes u i j * same nodes nodes' j m = gen evs' nodes' u k m := by
  classical
  have hdeg : degree nodes.length (InContact evs nodes u) i = degree nodes'.length (InContact evs' nodes' u) k := by
    rw [degree_labels hn u hi, degree_labels hn' u hk, ← e]
    congr 1
    ext z
    exact hz z
  by_cases hmem : nodes'[m] ∈ nodes
  · obtain ⟨j, hj, ej⟩ := List.getElem_of_mem hmem
    rw [sum_same_left (nodup_of hn) _ hj hm ej]
    have hij : i = j ↔ k = m := by
      rw [← List.Nodup.getElem_inj_iff (nodup_of hn) (hi := hi) (hj := hj), ← List.Nodup.getElem_inj_iff (nodup_of hn') (hi := hk) (hj := hm), e, ej]
    have hG : InContact evs nodes u i j ↔ InContact evs' nodes' u k m := by
      rw [touch_contact hi hj, touch_contact hk hm, hz, ← e, ej]
    unfold gen walkLaplacian
    simp only [hij, hG, hdeg]
  · rw [sum_same_none _ hm hmem]
    have hkm : k ≠ m := by
      rintro rfl
      exact hmem (e ▸ List.getElem_mem hi)
    have hG : ¬ InContact evs' nodes' u k m := by
      rw [touch_contact hk hm, ← e, ← hz]
      exact fun h => hmem (touch_mem hn h)
    unfold gen walkLaplacian
    simp [hkm, hG]

/-! ## One step and the whole walk -/

variable {reverse : Bool} {x : L}

theorem visits_mem (hn' : NodesOf evs' nodes') (hx' : x ∈ nodes') (h : SameAlongWalks evs evs' reverse x)
    {u : ℝ} {y : L} (hv : Visits evs reverse x u y) : y ∈ nodes' := by
  induction hv with
  | start => exact hx'
  | wait _ _ ih => exact ih
  | jump h1 h2 _ => exact touch_mem hn' ((h _ _ h1 _).1 h2)

/-- Rows of two walks that agree, on nodes that can be visited. -/
def Agree (evs : List (Event L ℝ)) (reverse : Bool) (x : L) (nodes nodes' : List L) (u : ℝ) (v v' : Nat → ℝ) : Prop :=
  (∀ (j : Nat) (hj : j < nodes.length), v j ≠ 0 → Visits evs reverse x u nodes[j]) ∧
  ∀ m < nodes'.length, v' m = ∑ j ∈ range nodes.length, v j * same nodes nodes' j m

theorem agree_step (hn : NodesOf evs nodes) (hn' : NodesOf evs' nodes') (hx' : x ∈ nodes')
    (h : SameAlongWalks evs evs' reverse x) {u : ℝ} (c : ℝ) {P P' : Mat ℝ} {i i' : Nat}
    (hA : Agree evs reverse x nodes nodes' u (P i) (P' i')) :
    Agree evs reverse x nodes nodes' u (mul nodes.length P (expm nodes.length fun a b => c * gen evs nodes u a b) i)
      (mul nodes'.length P' (expm nodes'.length fun a b => c * gen evs' nodes' u a b) i') := by
  set R : Nat → Prop := fun j => ∃ hj : j < nodes.length, Visits evs reverse x u nodes[j] with hR
  have hcl : Closed nodes.length (fun a b => c * gen evs nodes u a b) R := by
    intro a ha b hb hne
    have hne := right_ne_zero_of_mul hne
    by_cases hab : a = b
    · rw [hab]
    · have hlt : gen evs nodes u a b < (0 : ℝ) := lt_of_le_of_ne ((walkLaplacian_lap _ _).2 a ha b hb hab) hne
      have hG := (touch_contact ha hb).1 ((laplacian_neg hb hab).1 hlt)
      exact propext ⟨fun ⟨_, hv⟩ => ⟨hb, hv.jump hG⟩, fun ⟨_, hv⟩ => ⟨ha, hv.jump (touch_symm hG)⟩⟩
  have hclE := closed_expm hcl
  have hrow := expm_embed (R := R) (B := fun a b => c * gen evs nodes u a b) (B' := fun a b => c * gen evs' nodes' u a b)
    (J := same nodes nodes') (n := nodes.length) (n' := nodes'.length)
    (fun a ha hRa b hb hne => (hcl a ha b hb hne) ▸ hRa) (by
      rintro a ha ⟨_, hv⟩ m hm
      obtain ⟨k, hk, ek⟩ := List.getElem_of_mem (visits_mem hn' hx' h hv)
      rw [sum_same_right (nodup_of hn') (fun k => c * gen evs' nodes' u k m) ha hk ek.symm, ← gen_same hn hn' ha hk ek.symm (h _ _ hv) hm, mul_sum]
      exact sum_congr rfl fun j _ => by ring)
  obtain ⟨h1, h2⟩ := hA
  refine ⟨?_, ?_⟩
  · intro j hj hne
    unfold mul at hne
    obtain ⟨a, ha, hne⟩ := exists_ne_zero_of_sum_ne_zero hne
    have ha := mem_range.1 ha
    have hv := h1 a ha (left_ne_zero_of_mul hne)
    have : R j := (hclE a ha j hj (right_ne_zero_of_mul hne)) ▸ (⟨ha, hv⟩ : R a)
    exact this.2
  · intro m hm
    unfold mul
    set E := expm nodes.length fun a b => c * gen evs nodes u a b
    set E' := expm nodes'.length fun a b => c * gen evs' nodes' u a b
    calc ∑ k ∈ range nodes'.length, P' i' k * E' k m
        = ∑ k ∈ range nodes'.length, ∑ a ∈ range nodes.length, P i a * (same nodes nodes' a k * E' k m) := by
          refine sum_congr rfl fun k hk => ?_
          rw [h2 k (mem_range.1 hk), sum_mul]
          exact sum_congr rfl fun a _ => by ring
      _ = ∑ a ∈ range nodes.length, P i a * ∑ k ∈ range nodes'.length, same nodes nodes' a k * E' k m := by
          rw [sum_comm]
          exact sum_congr rfl fun a _ => by rw [mul_sum]
      _ = ∑ a ∈ range nodes.length, P i a * ∑ j ∈ range nodes.length, E a j * same nodes nodes' j m := by
          refine sum_congr rfl fun a ha => ?_
          have ha := mem_range.1 ha
          by_cases h0 : P i a = 0
          · rw [h0]; simp
          · rw [hrow a ha ⟨ha, h1 a ha h0⟩ m hm]
      _ = _ := by
          simp only [mul_sum, sum_mul]
          rw [sum_comm]
          exact sum_congr rfl fun j _ => sum_congr rfl fun a _ => by ring

theorem agree_congr {u : ℝ} {v v' w w' : Nat → ℝ} (hv : ∀ j < nodes.length, v j = w j) (hv' : ∀ j < nodes'.length, v' j = w' j)
    (h : Agree evs reverse x nodes nodes' u w w') : Agree evs reverse x nodes nodes' u v v' := by
  refine ⟨fun j hj hne => h.1 j hj (by rwa [← hv j hj]), fun m hm => ?_⟩
  rw [hv' m hm, h.2 m hm]
  exact sum_congr rfl fun j hj => by rw [hv j (mem_range.1 hj)]

theorem agree_later {u w : ℝ} {v v' : Nat → ℝ} (hl : if reverse then w ≤ u else u ≤ w) (h : Agree evs reverse x nodes nodes' u v v') :
    Agree evs reverse x nodes nodes' w v v' :=
  ⟨fun j hj hne => (h.1 j hj hne).wait hl, h.2⟩

theorem agree_start (hn : NodesOf evs nodes) (hn' : NodesOf evs' nodes') {i i' : Nat} (hi : i < nodes.length) (hi' : i' < nodes'.length)
    (e : nodes[i] = x) (e' : nodes'[i'] = x) (u : ℝ) : Agree evs reverse x nodes nodes' u (eye i) (eye i') := by
  refine ⟨?_, ?_⟩
  · intro j hj hne
    unfold eye at hne
    split at hne
    · rename_i h
      subst h
      rw [e]
      exact .start u
    · exact absurd rfl hne
  · intro m hm
    by_cases hmem : nodes'[m] ∈ nodes
    · obtain ⟨j, hj, ej⟩ := List.getElem_of_mem hmem
      rw [sum_same_left (nodup_of hn) _ hj hm ej]
      unfold eye
      have : i' = m ↔ i = j := by
        rw [← List.Nodup.getElem_inj_iff (nodup_of hn) (hi := hi) (hj := hj), ← List.Nodup.getElem_inj_iff (nodup_of hn') (hi := hi') (hj := hm), e, e', ej]
      simp only [this]
    · rw [sum_same_none _ hm hmem]
      unfold eye
      rw [if_neg]
      rintro rfl
      exact hmem (by rw [e', ← e]; exact List.getElem_mem hi)

theorem walks_agree (hn : NodesOf evs nodes) (hn' : NodesOf evs' nodes') {i i' : Nat} (hi : i < nodes.length) (hi' : i' < nodes'.length)
    (e : nodes[i] = x) (e' : nodes'[i'] = x) (h : SameAlongWalks evs evs' reverse x) {ts : List ℝ} (hc : Covers evs ts) (hc' : Covers evs' ts)
    {rate : ℝ} {P P' : ℝ → Mat ℝ}
    (hP : Walk nodes.length rate (gen evs nodes) (at' ts 0) (at' ts (ts.length - 1)) reverse P)
    (hP' : Walk nodes'.length rate (gen evs' nodes') (at' ts 0) (at' ts (ts.length - 1)) reverse P') :
    Agree evs reverse x nodes nodes' (if reverse then at' ts 0 else at' ts (ts.length - 1))
      (P (if reverse then at' ts 0 else at' ts (ts.length - 1)) i) (P' (if reverse then at' ts 0 else at' ts (ts.length - 1)) i') := by
  have hx' : x ∈ nodes' := e' ▸ List.getElem_mem hi'
  have hG := covers_grid hc nodes
  have hG' := covers_grid hc' nodes'
  have hmono : ∀ {a b : ℕ}, a ≤ b → b ≤ ts.length - 1 → at' ts a ≤ at' ts b := fun hab hb => grid_mono hG.mono hab hb
  cases reverse
  · simp only [Bool.false_eq_true, if_false]
    have key : ∀ k, k ≤ ts.length - 1 → Agree evs false x nodes nodes' (at' ts k) (P (at' ts k) i) (P' (at' ts k) i') := by
      intro k
      induction k with
      | zero =>
        intro _
        have h1 := hP.start
        have h2 := hP'.start
        simp only [Bool.false_eq_true, if_false] at h1 h2
        exact agree_congr (h1 i hi) (h2 i' hi') (agree_start hn hn' hi hi' e e' _)
      | succ k ih =>
        intro hk
        have m := hP.moves _ _ (hmono (Nat.zero_le k) (by omega)) (hmono (Nat.le_succ k) hk) (hmono hk le_rfl) (hG.same (by omega : k < ts.length - 1) le_rfl le_rfl)
        have m' := hP'.moves _ _ (hmono (Nat.zero_le k) (by omega)) (hmono (Nat.le_succ k) hk) (hmono hk le_rfl) (hG'.same (by omega : k < ts.length - 1) le_rfl le_rfl)
        simp only [Bool.false_eq_true, if_false] at m m'
        refine agree_later (u := at' ts k) (by simpa using hmono (Nat.le_succ k) hk) ?_
        exact agree_congr (m i hi) (m' i' hi') (agree_step hn hn' hx' h _ (ih (by omega)))
    exact key _ le_rfl
  · simp only [if_true]
    have key : ∀ d, d ≤ ts.length - 1 → Agree evs true x nodes nodes' (at' ts (ts.length - 1 - d)) (P (at' ts (ts.length - 1 - d)) i)
        (P' (at' ts (ts.length - 1 - d)) i') := by
      intro d
      induction d with
      | zero =>
        intro _
        have h1 := hP.start
        have h2 := hP'.start
        simp only [if_true] at h1 h2
        exact agree_congr (h1 i hi) (h2 i' hi') (agree_start hn hn' hi hi' e e' _)
      | succ d ih =>
        intro hd
        have ih := ih (by omega)
        obtain ⟨k, hk⟩ : ∃ k, k = ts.length - 1 - (d + 1) := ⟨_, rfl⟩
        rw [show ts.length - 1 - d = k + 1 from by omega] at ih
        rw [← hk]
        have m := hP.moves _ _ (hmono (Nat.zero_le k) (by omega)) (hmono (Nat.le_succ k) (by omega)) (hmono (by omega : k + 1 ≤ _) le_rfl) (hG.same (by omega : k < ts.length - 1) le_rfl le_rfl)
        have m' := hP'.moves _ _ (hmono (Nat.zero_le k) (by omega)) (hmono (Nat.le_succ k) (by omega)) (hmono (by omega : k + 1 ≤ _) le_rfl) (hG'.same (by omega : k < ts.length - 1) le_rfl le_rfl)
        simp only [if_true] at m m'
        have ih := agree_later (w := at' ts k) (by simpa using hmono (Nat.le_succ k) (by omega)) ih
        exact agree_congr (m i hi) (m' i' hi') (agree_step hn hn' hx' h _ ih)
    have := key (ts.length - 1) le_rfl
    rwa [Nat.sub_self] at this

end Verif.Local
