import Verif.Causal.Spec
import Verif.Scales.Mix
import Verif.Scales.Long

/-!
# Where walks on contacts can go
-/

set_option linter.dupNamespace false
set_option linter.unusedSectionVars false

namespace Verif.Causal

open Verif.TempNet Verif.Trans Verif.Flow Verif.EndToEnd Verif.Average Verif.Groups Verif.Scales Finset

variable {n : Nat}

/-! ## Products of matrices without negative entries -/

/-- No entry is negative, and none on the diagonal is zero. -/
def Lazy (n : Nat) (A : Mat ℝ) : Prop := ∀ i < n, (∀ j < n, 0 ≤ A i j) ∧ 0 < A i i

theorem mul_pos_iff {A B : Mat ℝ} (hA : ∀ i < n, ∀ j < n, 0 ≤ A i j) (hB : ∀ i < n, ∀ j < n, 0 ≤ B i j) {i j : Nat} (hi : i < n)
    (hj : j < n) : 0 < mul n A B i j ↔ ∃ k < n, 0 < A i k ∧ 0 < B k j := by
  unfold mul
  rw [sum_pos_iff_of_nonneg fun k hk => mul_nonneg (hA i hi k (mem_range.1 hk)) (hB k (mem_range.1 hk) j hj)]
  constructor
  · rintro ⟨k, hk, h⟩
    have hk := mem_range.1 hk
    have h1 : A i k ≠ 0 := left_ne_zero_of_mul h.ne'
    have h2 : B k j ≠ 0 := right_ne_zero_of_mul h.ne'
    exact ⟨k, hk, lt_of_le_of_ne (hA i hi k hk) h1.symm, lt_of_le_of_ne (hB k hk j hj) h2.symm⟩
  · rintro ⟨k, hk, h1, h2⟩
    exact ⟨k, mem_range.2 hk, mul_pos h1 h2⟩

theorem lazy_eye : Lazy n (eye : Mat ℝ) := by
  intro i _
  unfold eye
  exact ⟨fun j _ => by split <;> norm_num, by simp⟩

theorem lazy_mul {A B : Mat ℝ} (hA : Lazy n A) (hB : Lazy n B) : Lazy n (mul n A B) := by
  intro i hi
  refine ⟨fun j hj => sum_nonneg fun k hk => mul_nonneg ((hA i hi).1 k (mem_range.1 hk)) ((hB k (mem_range.1 hk)).1 j hj), ?_⟩
  exact (mul_pos_iff (fun i hi => (hA i hi).1) (fun i hi => (hB i hi).1) hi hi).2 ⟨i, hi, (hA i hi).2, (hB i hi).2⟩

theorem lazy_prod {l : List (Mat ℝ)} (h : ∀ A ∈ l, Lazy n A) : Lazy n (prod n l) := by
  induction l with
  | nil => exact lazy_eye
  | cons A l ih => exact lazy_mul (h A (by simp)) (ih fun B hB => h B (by simp [hB]))

theorem prod_cons_pos {A : Mat ℝ} {l : List (Mat ℝ)} (h : ∀ B ∈ A :: l, Lazy n B) {i j : Nat} (hi : i < n) (hj : j < n) :
    0 < prod n (A :: l) i j ↔ ∃ k < n, 0 < A i k ∧ 0 < prod n l k j :=
  mul_pos_iff (fun i hi => (h A (by simp) i hi).1) (fun i hi => (lazy_prod (fun B hB => h B (by simp [hB])) i hi).1) hi hj

theorem prod_snoc_pos {A : Mat ℝ} {l : List (Mat ℝ)} (h : ∀ B ∈ l ++ [A], Lazy n B) {i j : Nat} (hi : i < n) (hj : j < n) :
    0 < prod n (l ++ [A]) i j ↔ ∃ k < n, 0 < prod n l i k ∧ 0 < A k j := by
  rw [prod_append n l A i hi j hj]
  exact mul_pos_iff (fun i hi => (lazy_prod (fun B hB => h B (by simp [hB])) i hi).1) (fun i hi => (h A (by simp) i hi).1) hi hj

/-- If steps can be undone, the product in the other order leads back. -/
theorem prod_reverse_pos {l : List (Mat ℝ)} (h : ∀ A ∈ l, Lazy n A) (hs : ∀ A ∈ l, ∀ i < n, ∀ j < n, 0 < A i j → 0 < A j i) {i j : Nat}
    (hi : i < n) (hj : j < n) : 0 < prod n l.reverse i j ↔ 0 < prod n l j i := by
  induction l generalizing j with
  | nil =>
    show 0 < eye i j ↔ 0 < eye j i
    unfold eye
    by_cases e : i = j
    · rw [e]
    · rw [if_neg e, if_neg (Ne.symm e)]
  | cons A l ih =>
    rw [List.reverse_cons, prod_snoc_pos (fun B hB => h B (by simpa [or_comm] using hB)) hi hj, prod_cons_pos h hj hi]
    refine exists_congr fun k => and_congr_right fun hk => ?_
    rw [ih (fun B hB => h B (by simp [hB])) (fun B hB => hs B (by simp [hB])) hk, and_comm]
    exact and_congr_left fun _ => ⟨hs A (by simp) k hk j hj, hs A (by simp) j hj k hk⟩

/-! ## One step -/

variable {L : Type} [LinearOrder L] {evs : List (Event L ℝ)} {nodes : List L} {times : List ℝ}

theorem laplacian_neg {G : Nat → Nat → Prop} {i j : Nat} (hj : j < n) (hij : i ≠ j) :
    (walkLaplacian n G i j : ℝ) < 0 ↔ G i j := by
  classical
  unfold walkLaplacian
  rw [if_neg hij]
  by_cases hG : G i j
  · have hd : degree n G i ≠ 0 := by
      unfold degree
      exact (card_pos.2 ⟨j, by simp [hj, hG]⟩).ne'
    rw [if_neg hd, if_pos hG]
    refine ⟨fun _ => hG, fun _ => ?_⟩
    have : (0 : ℝ) < degree n G i := by exact_mod_cast Nat.pos_of_ne_zero hd
    have := one_div_pos.2 this
    linarith
  · simp [hG]

/-- Nodes linked by contacts at time `u`. -/
def Chain (evs : List (Event L ℝ)) (nodes : List L) (u : ℝ) : Nat → Nat → Prop :=
  Relation.ReflTransGen fun i j => i < nodes.length ∧ j < nodes.length ∧ InContact evs nodes u i j

theorem contact_symm {u : ℝ} {i j : Nat} (h : InContact evs nodes u i j) : InContact evs nodes u j i := by
  obtain ⟨e, he, h1, h2, h3⟩ := h
  exact ⟨e, he, h1, h2, h3.symm⟩

theorem chain_symm {u : ℝ} {i j : Nat} (h : Chain evs nodes u i j) : Chain evs nodes u j i := by
  unfold Chain at h ⊢
  induction h with
  | refl => exact .refl
  | tail _ hs ih => exact .head ⟨hs.2.1, hs.1, contact_symm hs.2.2⟩ ih

theorem contact_ne (h : GoodContacts evs) {u : ℝ} {i j : Nat} (hc : InContact evs nodes u i j) : i ≠ j := by
  rintro rfl
  obtain ⟨e, he, -, -, ⟨h1, h2⟩ | ⟨h1, h2⟩⟩ := hc
  · exact h.different e he (Option.some.inj (h1.symm.trans h2))
  · exact h.different e he (Option.some.inj (h1.symm.trans h2))

theorem step_time (ht : times.Pairwise (· < ·)) {scale : ℝ} (hs : 0 < scale) {k : Nat} (hk : k < times.length - 1) :
    0 < (times.getD (k + 1) 0 - times.getD k 0) * (1 / scale) := by
  have := times_lt ht (Nat.lt_succ_self k) (by omega : k + 1 < times.length)
  unfold at' at this
  exact mul_pos (sub_pos.2 this) (by positivity)

theorem walkStep_lazy (ht : times.Pairwise (· < ·)) {scale : ℝ} (hs : 0 < scale) {k : Nat} (hk : k < times.length - 1) :
    Lazy nodes.length (walkStep evs nodes times scale k) := by
  obtain ⟨h1, h2⟩ := walkStep_stay (evs := evs) (nodes := nodes) ht hs hk
  exact fun i hi => ⟨(h1 i hi).1, (Real.exp_pos _).trans_le (h2 i hi)⟩

/-- During a step the walk can go along the contacts of the interval, and nowhere else. -/
theorem walkStep_pos (h : GoodContacts evs) (ht : times.Pairwise (· < ·)) {scale : ℝ} (hs : 0 < scale) {k : Nat} (hk : k < times.length - 1)
    {i j : Nat} (hi : i < nodes.length) (hj : j < nodes.length) :
    0 < walkStep evs nodes times scale k i j ↔ Chain evs nodes (at' times k) i j := by
  constructor
  · intro hp
    have hc : Closed nodes.length (walkStep evs nodes times scale k) (fun a => {b | Chain evs nodes (at' times k) a b}) := by
      unfold walkStep
      apply closed_expm
      intro a ha b hb hne
      have hne := right_ne_zero_of_mul hne
      by_cases hab : a = b
      · rw [hab]
      · have hlt : walkLaplacian nodes.length (InContact evs nodes (times.getD k 0)) a b < (0 : ℝ) :=
          lt_of_le_of_ne ((walkLaplacian_lap _ _).2 a ha b hb hab) hne
        have hG := (laplacian_neg hb hab).1 hlt
        ext z
        exact ⟨fun hz => Relation.ReflTransGen.head ⟨hb, ha, contact_symm hG⟩ hz, fun hz => Relation.ReflTransGen.head ⟨ha, hb, hG⟩ hz⟩
    have e : {b | Chain evs nodes (at' times k) i b} = {b | Chain evs nodes (at' times k) j b} := hc i hi j hj hp.ne'
    have : j ∈ {b | Chain evs nodes (at' times k) i b} := by
      rw [e]
      exact Relation.ReflTransGen.refl
    exact this
  · intro hc
    refine evo_pos (walkLaplacian_lap _ _) (fun i _ => laplacian_diag _ _ i) hi ?_ (step_time ht hs hk)
    unfold Chain at hc
    unfold Conn
    induction hc with
    | refl => exact .refl
    | tail _ hab ih => exact (ih hab.1).tail ⟨hab.1, hab.2.1, (laplacian_neg hab.2.1 (contact_ne h hab.2.2)).2 hab.2.2⟩

/-! ## Contacts between labels and between their positions -/

theorem touch_contact {u : ℝ} {i j : Nat} (hi : i < nodes.length) (hj : j < nodes.length) :
    InContact evs nodes u i j ↔ Touch evs u nodes[i] nodes[j] := by
  unfold InContact Touch
  refine exists_congr fun e => and_congr_right fun _ => and_congr_right fun _ => and_congr_right fun _ => ?_
  rw [List.getElem?_eq_getElem hi, List.getElem?_eq_getElem hj, Option.some_inj, Option.some_inj, Option.some_inj, Option.some_inj]
  constructor
  · rintro (⟨h1, h2⟩ | ⟨h1, h2⟩)
    · exact .inl ⟨h1.symm, h2.symm⟩
    · exact .inr ⟨h1.symm, h2.symm⟩
  · rintro (⟨h1, h2⟩ | ⟨h1, h2⟩)
    · exact .inl ⟨h1.symm, h2.symm⟩
    · exact .inr ⟨h1.symm, h2.symm⟩

theorem touch_mem (hn : NodesOf evs nodes) {u : ℝ} {x y : L} (h : Touch evs u x y) : y ∈ nodes := by
  obtain ⟨e, he, -, -, ⟨-, h2⟩ | ⟨h1, -⟩⟩ := h
  · exact (hn.2 y).2 ⟨e, he, .inr h2.symm⟩
  · exact (hn.2 y).2 ⟨e, he, .inl h1.symm⟩

theorem Reaches.earlier {s s' : ℝ} {x y : L} (h : Reaches evs s' x y) (hs : s ≤ s') : Reaches evs s x y := by
  cases h with
  | stay => exact .stay _ _
  | jump h1 h2 h3 => exact .jump (hs.trans h1) h2 h3

theorem chain_reaches {u : ℝ} {i j : Nat} (hi : i < nodes.length) (hj : j < nodes.length) (h : Chain evs nodes u i j) {z : L}
    (hz : Reaches evs u nodes[j] z) : Reaches evs u nodes[i] z := by
  unfold Chain at h
  induction h using Relation.ReflTransGen.head_induction_on with
  | refl => exact hz
  | head hs _ ih => exact .jump le_rfl ((touch_contact hs.1 hs.2.1).1 hs.2.2) (ih hs.2.1)

theorem times_mono (ht : times.Pairwise (· < ·)) {i j : Nat} (hij : i ≤ j) (hj : j < times.length) : at' times i ≤ at' times j := by
  rcases Nat.eq_or_lt_of_le hij with rfl | h
  · exact le_rfl
  · exact (times_lt ht h hj).le

/-- A time between the first and the last of the times is in one of the intervals. -/
theorem exists_interval {u : ℝ} : ∀ {m : Nat} {k : Nat}, k ≤ m → at' times k ≤ u → u < at' times m →
    ∃ q, k ≤ q ∧ q < m ∧ at' times q ≤ u ∧ u < at' times (q + 1) := by
  intro m
  induction m with
  | zero => intro k hk h1 h2; exact absurd h1 (not_le.2 (by rwa [Nat.le_zero.1 hk]))
  | succ m ih =>
    intro k hk h1 h2
    rcases lt_or_ge u (at' times m) with h | h
    · rcases Nat.eq_or_lt_of_le hk with rfl | hk
      · exact absurd (h1.trans_lt h2) (lt_irrefl _)
      · obtain ⟨q, r1, r2, r3, r4⟩ := ih (by omega : k ≤ m) h1 h
        exact ⟨q, r1, by omega, r3, r4⟩
    · rcases Nat.eq_or_lt_of_le hk with rfl | hk
      · exact absurd (h1.trans_lt h2) (lt_irrefl _)
      · exact ⟨m, by omega, by omega, h, h2⟩

theorem contact_same (ht : TimesOf evs times) {k : Nat} (hk : k < times.length - 1) {u : ℝ} (h1 : at' times k ≤ u)
    (h2 : u < at' times (k + 1)) {x y : L} (h : Touch evs u x y) : Touch evs (at' times k) x y := by
  obtain ⟨e, he, e1, e2, e3⟩ := h
  refine ⟨e, he, ?_, h1.trans_lt e2, e3⟩
  by_contra hlt
  rw [not_le] at hlt
  obtain ⟨i, hi, e4⟩ := times_mem ((ht.2 e.start).2 ⟨e, he, .inl rfl⟩)
  rw [← e4] at hlt e1
  have hki : k < i := by
    by_contra hc
    exact absurd (times_mono ht.1 (Nat.le_of_not_lt hc) (by omega)) (not_le.2 hlt)
  exact absurd (e1.trans_lt h2) (not_lt.2 (times_mono ht.1 hki hi))

/-! ## The walk over the rest of the time -/

/-- The steps from the `k`-th time on. -/
noncomputable def stepsFrom (evs : List (Event L ℝ)) (nodes : List L) (times : List ℝ) (scale : ℝ) (k m : Nat) : List (Mat ℝ) :=
  (List.range' k m).map (walkStep evs nodes times scale)

theorem stepsFrom_succ (scale : ℝ) (k m : Nat) :
    stepsFrom evs nodes times scale k (m + 1) = walkStep evs nodes times scale k :: stepsFrom evs nodes times scale (k + 1) m := by
  unfold stepsFrom
  rw [List.range'_succ, List.map_cons]

theorem stepsFrom_lazy (ht : times.Pairwise (· < ·)) {scale : ℝ} (hs : 0 < scale) {k m : Nat} (hm : k + m ≤ times.length - 1) :
    ∀ A ∈ stepsFrom evs nodes times scale k m, Lazy nodes.length A := by
  intro A hA
  obtain ⟨q, hq, rfl⟩ := List.mem_map.1 hA
  obtain ⟨hq1, hq2⟩ := List.mem_range'_1.1 hq
  exact walkStep_lazy ht hs (by omega)

/-- The walk goes only where contacts lead. -/
theorem reaches_of_pos (h : GoodContacts evs) (ht : TimesOf evs times) {scale : ℝ} (hs : 0 < scale) {j : Nat} (hj : j < nodes.length) :
    ∀ {m k : Nat}, k + m ≤ times.length - 1 → ∀ {i} (hi : i < nodes.length), 0 < prod nodes.length (stepsFrom evs nodes times scale k m) i j →
      Reaches evs (at' times k) nodes[i] nodes[j] := by
  intro m
  induction m with
  | zero =>
    intro k _ i hi hp
    have hp : 0 < (eye i j : ℝ) := hp
    unfold eye at hp
    split at hp
    · rename_i e
      subst e
      exact .stay _ _
    · exact absurd hp (lt_irrefl _)
  | succ m ih =>
    intro k hm i hi hp
    have hl := stepsFrom_lazy (evs := evs) (nodes := nodes) ht.1 hs hm
    rw [stepsFrom_succ] at hp hl
    obtain ⟨q, hq, h1, h2⟩ := (prod_cons_pos hl hi hj).1 hp
    have := (ih (by omega) hq h2).earlier (times_mono ht.1 (Nat.le_succ k) (by omega))
    exact chain_reaches hi hq ((walkStep_pos h ht.1 hs (by omega) hi hq).1 h1) this

/-- Waiting before the walk starts. -/
theorem prod_wait (ht : times.Pairwise (· < ·)) {scale : ℝ} (hs : 0 < scale) {i j : Nat} (hi : i < nodes.length) (hj : j < nodes.length)
    {q : Nat} (hp : 0 < prod nodes.length (stepsFrom evs nodes times scale q (times.length - 1 - q)) i j) :
    ∀ {d k : Nat}, k + d = q → q ≤ times.length - 1 →
      0 < prod nodes.length (stepsFrom evs nodes times scale k (times.length - 1 - k)) i j := by
  intro d
  induction d with
  | zero => intro k hk _; rw [Nat.add_zero] at hk; rwa [hk]
  | succ d ih =>
    intro k hk hq
    have h1 := ih (k := k + 1) (by omega) hq
    have e : times.length - 1 - k = times.length - 1 - (k + 1) + 1 := by omega
    have hl := stepsFrom_lazy (evs := evs) (nodes := nodes) ht hs (k := k) (m := times.length - 1 - k) (by omega)
    rw [e, stepsFrom_succ] at hl ⊢
    exact (prod_cons_pos hl hi hj).2 ⟨i, hi, (walkStep_lazy ht hs (by omega) i hi).2, h1⟩

/-- The walk can go everywhere contacts lead. -/
theorem pos_of_reaches (h : GoodContacts evs) (hn : NodesOf evs nodes) (ht : TimesOf evs times) {scale : ℝ} (hs : 0 < scale) {s : ℝ} {x z : L}
    (hr : Reaches evs s x z) : ∀ {i j : Nat} (hi : i < nodes.length) (hj : j < nodes.length), nodes[i] = x → nodes[j] = z →
      ∀ {k : Nat}, k ≤ times.length - 1 → at' times k ≤ s →
        0 < prod nodes.length (stepsFrom evs nodes times scale k (times.length - 1 - k)) i j := by
  induction hr with
  | stay s x =>
    intro i j hi hj e1 e2 k hk _
    have : i = j := (List.nodup_iff_injective_get.1 (hn.1.imp fun h => h.ne)) (a₁ := ⟨i, hi⟩) (a₂ := ⟨j, hj⟩) (e1.trans e2.symm) |> Fin.mk.inj
    subst this
    exact (lazy_prod (stepsFrom_lazy ht.1 hs (by omega)) i hi).2
  | jump h1 h2 _ ih =>
    rename_i s u x y z _
    intro i j hi hj e1 e2 k hk hks
    obtain ⟨w, hw, ew⟩ := List.getElem_of_mem (touch_mem hn h2)
    have hlast : u < at' times (times.length - 1) := by
      obtain ⟨e, he, -, e3, -⟩ := h2
      obtain ⟨q, hq, e4⟩ := times_mem ((ht.2 e.stop).2 ⟨e, he, .inr rfl⟩)
      rw [← e4] at e3
      exact e3.trans_le (times_mono ht.1 (by omega) (by omega))
    obtain ⟨q, q1, q2, q3, q4⟩ := exists_interval hk (hks.trans h1) hlast
    have h3 := ih hw hj ew e2 (k := q) (by omega) q3
    have hc : InContact evs nodes (at' times q) i w := by
      rw [touch_contact hi hw, e1, ew]
      exact contact_same ht q2 q3 q4 h2
    refine prod_wait ht.1 hs hi hj (q := q) ?_ (d := q - k) (by omega) (by omega)
    have hl := stepsFrom_lazy (evs := evs) (nodes := nodes) ht.1 hs (k := q) (m := times.length - 1 - q) (by omega)
    have e : times.length - 1 - q = times.length - 1 - (q + 1) + 1 := by omega
    rw [e, stepsFrom_succ] at hl h3 ⊢
    obtain ⟨v, hv, h5, h6⟩ := (prod_cons_pos hl hw hj).1 h3
    refine (prod_cons_pos hl hi hj).2 ⟨v, hv, ?_, h6⟩
    rw [walkStep_pos h ht.1 hs q2 hi hv]
    exact Relation.ReflTransGen.head ⟨hi, hw, hc⟩ ((walkStep_pos h ht.1 hs q2 hw hv).1 h5)

theorem steps_all (scale : ℝ) : (List.range (times.length - 1)).map (walkStep evs nodes times scale) =
    stepsFrom evs nodes times scale 0 (times.length - 1) := by
  unfold stepsFrom
  rw [List.range_eq_range']

/-- Chains can begin before the first time. -/
theorem leads_iff (ht : TimesOf evs times) {x y : L} : Leads evs x y ↔ Reaches evs (at' times 0) x y := by
  constructor
  · rintro ⟨s, hr⟩
    cases hr with
    | stay => exact .stay _ _
    | jump h1 h2 h3 =>
      refine .jump ?_ h2 h3
      obtain ⟨e, he, e1, -⟩ := h2
      obtain ⟨q, hq, e4⟩ := times_mem ((ht.2 e.start).2 ⟨e, he, .inl rfl⟩)
      rw [← e4] at e1
      exact (times_mono ht.1 (Nat.zero_le q) hq).trans e1
  · exact fun h => ⟨_, h⟩

/-- Where the walk over the whole time can go. -/
theorem walkOver_pos (h : GoodContacts evs) (hn : NodesOf evs nodes) (ht : TimesOf evs times) {scale : ℝ} (hs : 0 < scale) (reverse : Bool)
    {i j : Nat} (hi : i < nodes.length) (hj : j < nodes.length) :
    0 < walkOver evs nodes times scale reverse i j ↔ if reverse then Leads evs nodes[j] nodes[i] else Leads evs nodes[i] nodes[j] := by
  have key : ∀ {a b : Nat} (ha : a < nodes.length) (hb : b < nodes.length),
      0 < prod nodes.length (stepsFrom evs nodes times scale 0 (times.length - 1)) a b ↔ Leads evs nodes[a] nodes[b] := by
    intro a b ha hb
    rw [leads_iff ht]
    exact ⟨reaches_of_pos h ht hs hb (by omega) ha, fun hr => pos_of_reaches h hn ht hs hr ha hb rfl rfl (Nat.zero_le _) le_rfl⟩
  unfold walkOver
  simp only [steps_all]
  cases reverse
  · simp only [Bool.false_eq_true, if_false]
    exact key hi hj
  · simp only [if_true]
    rw [prod_reverse_pos (stepsFrom_lazy ht.1 hs (by omega)) ?_ hi hj]
    · exact key hj hi
    · intro A hA a ha b hb hab
      obtain ⟨q, hq, rfl⟩ := List.mem_map.1 hA
      obtain ⟨hq1, hq2⟩ := List.mem_range'_1.1 hq
      rw [walkStep_pos h ht.1 hs (by omega) ha hb] at hab
      rw [walkStep_pos h ht.1 hs (by omega) hb ha]
      exact chain_symm hab

theorem walkOver_nonneg (ht : times.Pairwise (· < ·)) {scale : ℝ} (hs : 0 < scale) (reverse : Bool)
    {i j : Nat} (hi : i < nodes.length) (hj : j < nodes.length) : 0 ≤ walkOver evs nodes times scale reverse i j := by
  unfold walkOver
  simp only [steps_all]
  refine (lazy_prod (fun A hA => stepsFrom_lazy (evs := evs) (nodes := nodes) ht hs (k := 0) (m := times.length - 1) (by omega) A ?_) i hi).1 j hj
  split at hA
  · exact List.mem_reverse.1 hA
  · exact hA

end Verif.Causal
