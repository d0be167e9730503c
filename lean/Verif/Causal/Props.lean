import Verif.Causal.Lemmas
import Verif.Noise.Props
import Verif.Groups.Props

/-!
# Walkers get exactly where contacts lead: property C147
-/

set_option linter.dupNamespace false
set_option linter.unusedSectionVars false

namespace Verif.Causal

open Verif.TempNet Verif.Trans Verif.Flow Verif.EndToEnd Verif.Average Verif.Groups Verif.Scales Verif.Noise Finset

variable {L : Type} [LinearOrder L]

/-- **C147**, transitions.  For all contacts that last, connect different labels and do not overlap
for a pair, and for all waiting times: the transition matrix that the library computes has a
positive probability exactly where a chain of contacts that respects the order of time leads, and
zero everywhere else; backward in time, where chains lead back.  In particular no probability
depends on contacts that take place in the wrong order, and which ones are positive does not depend
on the waiting time. -/
theorem C147_reached {evs : List (Event L ℝ)} (h : GoodContacts evs) (sf : Nat → Bool) {scale : ℝ} (hs : 0 < scale)
    (reverse : Bool) {nodes : List L} (hn : NodesOf evs nodes) :
    ∃ T, computedTransition sf evs scale reverse = some T ∧ ∀ i j (hi : i < nodes.length) (hj : j < nodes.length),
      0 ≤ T i j ∧ (0 < T i j ↔ if reverse then Leads evs nodes[j] nodes[i] else Leads evs nodes[i] nodes[j]) := by
  obtain ⟨T, hT, e⟩ := computedTransition_spec h sf hs reverse
  refine ⟨T, hT, fun i j hi hj => ?_⟩
  rw [← nodes_unique hn] at e
  rw [e i hi j hj]
  exact ⟨walkOver_nonneg (timesOf_spec evs).1 hs reverse hi hj, walkOver_pos h hn (timesOf_spec evs) hs reverse hi hj⟩

/-! ## Covariances -/

theorem covAt_more {n : Nat} {p : Nat → ℝ} {T : Mat ℝ} (hp : ∀ i < n, 0 < p i) (hT : ∀ i < n, ∀ j < n, 0 ≤ T i j) {i j : Nat}
    (hi : i < n) (hj : j < n) : -(p i * p j) < covAt n p T i j ↔ ∃ k < n, 0 < T i k ∧ 0 < T j k := by
  unfold covAt
  rw [neg_eq_zero_sub, sub_lt_sub_iff_right]
  have ha : ∀ k < n, 0 ≤ after n p T k := fun k hk =>
    sum_nonneg fun l hl => mul_nonneg (hp l (mem_range.1 hl)).le (hT l (mem_range.1 hl) k hk)
  have h0 : ∀ k ∈ range n, 0 ≤ if after n p T k = 0 then 0 else (p i * T i k) * (p j * T j k) / after n p T k := by
    intro k hk
    have hk := mem_range.1 hk
    split
    · exact le_rfl
    · exact div_nonneg (mul_nonneg (mul_nonneg (hp i hi).le (hT i hi k hk)) (mul_nonneg (hp j hj).le (hT j hj k hk))) (ha k hk)
  rw [sum_pos_iff_of_nonneg h0]
  constructor
  · rintro ⟨k, hk, h⟩
    have hk := mem_range.1 hk
    split at h
    · exact absurd h (lt_irrefl _)
    · have h1 : T i k ≠ 0 := by
        rintro e
        rw [e] at h
        simp at h
      have h2 : T j k ≠ 0 := by
        rintro e
        rw [e] at h
        simp at h
      exact ⟨k, hk, lt_of_le_of_ne (hT i hi k hk) h1.symm, lt_of_le_of_ne (hT j hj k hk) h2.symm⟩
  · rintro ⟨k, hk, h1, h2⟩
    have hpos : 0 < after n p T k :=
      (mul_pos (hp i hi) h1).trans_le (single_le_sum (f := fun l => p l * T l k)
        (fun l hl => mul_nonneg (hp l (mem_range.1 hl)).le (hT l (mem_range.1 hl) k hk)) (mem_range.2 hi))
    refine ⟨k, mem_range.2 hk, ?_⟩
    rw [if_neg hpos.ne']
    exact div_pos (mul_pos (mul_pos (hp i hi) h1) (mul_pos (hp j hj) h2)) hpos

theorem sum_mul_strict (l : List (ℝ × Mat ℝ)) (f : ℝ × Mat ℝ → ℝ) {c : ℝ} (h0 : ∀ e ∈ l, 0 < e.1) (h : ∀ e ∈ l, c ≤ f e)
    (hx : ∃ e ∈ l, c < f e) : (l.map (·.1)).sum * c < (l.map fun e => e.1 * f e).sum := by
  induction l with
  | nil => obtain ⟨e, he, -⟩ := hx; cases he
  | cons a l ih =>
    simp only [List.map_cons, List.sum_cons]
    rw [add_mul]
    have ha := h0 a (by simp)
    obtain ⟨e, he, hlt⟩ := hx
    rcases List.mem_cons.1 he with rfl | he
    · exact add_lt_add_of_lt_of_le (mul_lt_mul_of_pos_left hlt ha)
        (sum_mul_lower l f (fun e he => (h0 e (by simp [he])).le) fun e he => h e (by simp [he]))
    · exact add_lt_add_of_le_of_lt (mul_le_mul_of_nonneg_left (h a (by simp)) ha.le)
        (ih (fun e he => h0 e (by simp [he])) (fun e he => h e (by simp [he])) ⟨e, he, hlt⟩)

theorem meanCov_more {n : Nat} {p : Nat → ℝ} {l : List (ℝ × Mat ℝ)} (hp : ∀ i < n, 0 < p i) (hne : l ≠ []) (hw : ∀ e ∈ l, 0 < e.1)
    (hT : ∀ e ∈ l, ∀ i < n, ∀ j < n, 0 ≤ e.2 i j) {i j : Nat} (hi : i < n) (hj : j < n) :
    -(p i * p j) < meanCov n p l i j ↔ ∃ e ∈ l, ∃ k < n, 0 < e.2 i k ∧ 0 < e.2 j k := by
  have hsum := sum_pos_of hne hw
  have hle : ∀ e ∈ l, -(p i * p j) ≤ covAt n p e.2 i j := fun e he => covAt_lower (fun i hi => (hp i hi).le) (hT e he) hi hj
  unfold meanCov
  rw [lt_div_iff₀ hsum, mul_comm]
  constructor
  · intro h
    by_contra hno
    have hc : ∀ e ∈ l, covAt n p e.2 i j = -(p i * p j) := by
      intro e he
      refine le_antisymm (not_lt.1 fun hlt => hno ⟨e, he, (covAt_more hp (hT e he) hi hj).1 hlt⟩) (hle e he)
    rw [sum_mul_const l (fun e => covAt n p e.2 i j) hc] at h
    exact absurd h (lt_irrefl _)
  · rintro ⟨e, he, hk⟩
    exact sum_mul_strict l (fun e => covAt n p e.2 i j) hw hle ⟨e, he, (covAt_more hp (hT e he) hi hj).2 hk⟩

/-- Labels that are met after some steps are met at the end. -/
theorem prod_take_meet {n : Nat} {l : List (Mat ℝ)} (h : ∀ A ∈ l, Lazy n A) (m : Nat) {i k : Nat} (hi : i < n) (hk : k < n)
    (hp : 0 < prod n (l.take m) i k) : 0 < prod n l i k := by
  have e := prod_append_list n (l.take m) (l.drop m) i hi k hk
  rw [List.take_append_drop] at e
  rw [e]
  refine (mul_pos_iff (fun a ha => (lazy_prod (fun A hA => h A (List.mem_of_mem_take hA)) a ha).1)
    (fun a ha => (lazy_prod (fun A hA => h A (List.mem_of_mem_drop hA)) a ha).1) hi hk).2 ⟨k, hk, hp, ?_⟩
  exact (lazy_prod (fun A hA => h A (List.mem_of_mem_drop hA)) k hk).2

theorem mem_flowSteps_take {n : Nat} {reverse : Bool} {Ms : List (Mat ℝ)} {ts : List ℝ} {e : ℝ × Mat ℝ}
    (he : e ∈ flowSteps n reverse Ms ts Ms.length) : ∃ k, e.2 = prod n ((if reverse then Ms.reverse else Ms).take k) := by
  unfold flowSteps at he
  cases reverse
  · simp only [Bool.false_eq_true, if_false, List.mem_map, List.mem_range] at he
    obtain ⟨k, -, rfl⟩ := he
    exact ⟨k + 1, rfl⟩
  · simp only [if_true, List.mem_map, List.mem_range] at he
    obtain ⟨k, -, rfl⟩ := he
    exact ⟨k + 1, rfl⟩

theorem last_flowStep {n : Nat} (reverse : Bool) {Ms : List (Mat ℝ)} (ts : List ℝ) (hne : 0 < Ms.length) :
    ∃ e ∈ flowSteps n reverse Ms ts Ms.length, e.2 = prod n (if reverse then Ms.reverse else Ms) := by
  unfold flowSteps
  cases reverse
  · simp only [Bool.false_eq_true, if_false]
    refine ⟨_, List.mem_map.2 ⟨Ms.length - 1, List.mem_range.2 (by omega), rfl⟩, ?_⟩
    show prod n (Ms.take (Ms.length - 1 + 1)) = _
    rw [List.take_of_length_le (by omega)]
  · simp only [if_true]
    refine ⟨_, List.mem_map.2 ⟨Ms.length - 1, List.mem_range.2 (by omega), rfl⟩, ?_⟩
    show prod n (Ms.reverse.take (Ms.length - 1 + 1)) = _
    rw [List.take_of_length_le (by simp; omega)]

theorem flowCov_more {evs : List (Event L ℝ)} {nodes : List L} {times : List ℝ} (ht : times.Pairwise (· < ·)) (h2 : 2 ≤ times.length)
    {scale : ℝ} (hs : 0 < scale) (reverse : Bool) {i j : Nat} (hi : i < nodes.length) (hj : j < nodes.length) :
    -(1 / (nodes.length : ℝ) ^ 2) < flowCov evs nodes times scale reverse i j ↔
      ∃ k < nodes.length, 0 < walkOver evs nodes times scale reverse i k ∧ 0 < walkOver evs nodes times scale reverse j k := by
  unfold flowCov walkOver
  set Ms := (List.range (times.length - 1)).map (walkStep evs nodes times scale) with hMs
  have hl : Ms.length = times.length - 1 := by simp [hMs]
  have hz : ∀ A ∈ Ms, Lazy nodes.length A := by
    rw [hMs, steps_all]
    exact stepsFrom_lazy ht hs (by omega)
  have hz' : ∀ A ∈ (if reverse then Ms.reverse else Ms), Lazy nodes.length A := by
    intro A hA
    apply hz
    split at hA
    · exact List.mem_reverse.1 hA
    · exact hA
  have hn0 : (0 : ℝ) < nodes.length := by exact_mod_cast (by omega : 0 < nodes.length)
  have := meanCov_more (n := nodes.length) (p := fun _ => 1 / (nodes.length : ℝ))
    (l := flowSteps nodes.length reverse Ms times Ms.length)
    (fun _ _ => by positivity) (flowSteps_ne (by omega)) (fun e he => (mem_flowSteps ht le_rfl (by omega) he).1) ?_ hi hj
  · rw [← sq, div_pow, one_pow] at this
    rw [this]
    constructor
    · rintro ⟨e, he, k, hk, h3, h4⟩
      obtain ⟨m, em⟩ := mem_flowSteps_take he
      rw [em] at h3 h4
      exact ⟨k, hk, prod_take_meet hz' m hi hk h3, prod_take_meet hz' m hj hk h4⟩
    · rintro ⟨k, hk, h3, h4⟩
      obtain ⟨e, he, e2⟩ := last_flowStep (n := nodes.length) reverse times (by omega : 0 < Ms.length)
      rw [← e2] at h3 h4
      exact ⟨e, he, k, hk, h3, h4⟩
  · intro e he a ha
    obtain ⟨m, em⟩ := mem_flowSteps_take he
    rw [em]
    exact (lazy_prod (fun A hA => hz' A (List.mem_of_mem_take hA)) a ha).1

theorem touch_mem_left {evs : List (Event L ℝ)} {nodes : List L} (hn : NodesOf evs nodes) {u : ℝ} {x y : L} (h : Touch evs u x y) : x ∈ nodes := by
  obtain ⟨e, he, h1, h2, h3⟩ := h
  exact touch_mem hn ⟨e, he, h1, h2, h3.symm⟩

theorem leads_mem {evs : List (Event L ℝ)} {nodes : List L} (hn : NodesOf evs nodes) {x y : L} (h : Leads evs x y) :
    x ∈ nodes ↔ y ∈ nodes := by
  obtain ⟨s, hr⟩ := h
  induction hr with
  | stay => rfl
  | jump _ h2 _ ih => exact ⟨fun _ => ih.1 (touch_mem hn h2), fun _ => touch_mem_left hn h2⟩

/-- **C147**, covariances.  The covariance that the library computes for two labels is never smaller
than minus the square of the probability of a label.  It has this value exactly if no walkers from
the two labels can meet, backward in time if they cannot come from a common label.  Which pairs these
are does not depend on the waiting time. -/
theorem C147_covariance {evs : List (Event L ℝ)} (h : GoodContacts evs) (sf : Nat → Bool) {scale : ℝ} (hs : 0 < scale)
    (reverse : Bool) {nodes : List L} (hn : NodesOf evs nodes) :
    ∃ S, computedFlow sf evs scale reverse = some S ∧ ∀ i j (hi : i < nodes.length) (hj : j < nodes.length),
      -(1 / (nodes.length : ℝ) ^ 2) ≤ S i j ∧
      (S i j = -(1 / (nodes.length : ℝ) ^ 2) ↔
        ¬ if reverse then CommonOrigin evs nodes[i] nodes[j] else CanMeet evs nodes[i] nodes[j]) := by
  obtain ⟨S, hS, hE⟩ := computedFlow_spec h sf hs reverse
  refine ⟨S, hS, fun i j hi hj => ?_⟩
  have hlow := flowCov_lower h sf hs reverse (i := i) (j := j)
  rw [← nodes_unique hn] at hlow hE
  have hlow := hlow hi hj
  rw [hE i hi j hj]
  refine ⟨hlow, ?_⟩
  have hm := flowCov_more (evs := evs) (nodes := nodes) (timesOf_spec evs).1 (times_two h) hs reverse hi hj
  rw [← not_iff_not, not_not, ← ne_eq, ne_comm, ← hlow.lt_iff_ne, hm]
  have hp : ∀ {a b : Nat} (ha : a < nodes.length) (hb : b < nodes.length), _ :=
    fun {a b} ha hb => walkOver_pos h hn (timesOf_spec evs) hs reverse ha hb
  cases reverse
  · simp only [Bool.false_eq_true, if_false] at hp ⊢
    constructor
    · rintro ⟨k, hk, h1, h2⟩
      exact ⟨nodes[k], (hp hi hk).1 h1, (hp hj hk).1 h2⟩
    · rintro ⟨z, h1, h2⟩
      obtain ⟨k, hk, rfl⟩ := List.getElem_of_mem ((leads_mem hn h1).1 (List.getElem_mem hi))
      exact ⟨k, hk, (hp hi hk).2 h1, (hp hj hk).2 h2⟩
  · simp only [if_true] at hp ⊢
    constructor
    · rintro ⟨k, hk, h1, h2⟩
      exact ⟨nodes[k], (hp hi hk).1 h1, (hp hj hk).1 h2⟩
    · rintro ⟨z, h1, h2⟩
      obtain ⟨k, hk, rfl⟩ := List.getElem_of_mem ((leads_mem hn h1).2 (List.getElem_mem hi))
      exact ⟨k, hk, (hp hi hk).2 h1, (hp hj hk).2 h2⟩

open Classical in
/-- **C147**, best partitions.  If a second partition separates labels of the first one, and only
labels whose walkers cannot meet (backward: cannot come from a common label), its stability is
larger: by the square of the probability of a label for every ordered pair that is separated. -/
theorem C147_separate {evs : List (Event L ℝ)} (h : GoodContacts evs) (sf : Nat → Bool) {scale : ℝ} (hs : 0 < scale)
    (reverse : Bool) {nodes : List L} (hn : NodesOf evs nodes) {cl cl' : List (Finset Nat)}
    (hfine : ∀ i < nodes.length, ∀ j < nodes.length, (∃ c ∈ cl', i ∈ c ∧ j ∈ c) → ∃ c ∈ cl, i ∈ c ∧ j ∈ c)
    (honly : ∀ i j (hi : i < nodes.length) (hj : j < nodes.length), (∃ c ∈ cl, i ∈ c ∧ j ∈ c) → (¬∃ c ∈ cl', i ∈ c ∧ j ∈ c) →
      ¬ if reverse then CommonOrigin evs nodes[i] nodes[j] else CanMeet evs nodes[i] nodes[j]) :
    ∃ S, computedFlow sf evs scale reverse = some S ∧
      within nodes.length S cl' = within nodes.length S cl +
        (((range nodes.length) ×ˢ (range nodes.length)).filter fun e =>
          (∃ c ∈ cl, e.1 ∈ c ∧ e.2 ∈ c) ∧ ¬∃ c ∈ cl', e.1 ∈ c ∧ e.2 ∈ c).card / (nodes.length : ℝ) ^ 2 := by
  obtain ⟨S, hS, hC⟩ := C147_covariance h sf hs reverse hn
  refine ⟨S, hS, ?_⟩
  have hcard : (((((range nodes.length) ×ˢ (range nodes.length)).filter fun e =>
          (∃ c ∈ cl, e.1 ∈ c ∧ e.2 ∈ c) ∧ ¬∃ c ∈ cl', e.1 ∈ c ∧ e.2 ∈ c).card : ℝ)) / (nodes.length : ℝ) ^ 2 =
      ∑ i ∈ range nodes.length, ∑ j ∈ range nodes.length,
        if (∃ c ∈ cl, i ∈ c ∧ j ∈ c) ∧ ¬∃ c ∈ cl', i ∈ c ∧ j ∈ c then 1 / (nodes.length : ℝ) ^ 2 else 0 := by
    rw [← Finset.sum_product', ← Finset.sum_filter, Finset.sum_const, nsmul_eq_mul, mul_one_div]
  rw [hcard]
  unfold within
  rw [← Finset.sum_add_distrib]
  refine Finset.sum_congr rfl fun i hi => ?_
  rw [← Finset.sum_add_distrib]
  refine Finset.sum_congr rfl fun j hj => ?_
  have hi := mem_range.1 hi
  have hj := mem_range.1 hj
  by_cases h1 : ∃ c ∈ cl, i ∈ c ∧ j ∈ c
  · by_cases h2 : ∃ c ∈ cl', i ∈ c ∧ j ∈ c
    · rw [if_pos h2, if_pos h1, if_neg (fun h => h.2 h2), add_zero]
    · rw [if_neg h2, if_pos h1, if_pos ⟨h1, h2⟩, ((hC i j hi hj).2).2 (honly i j hi hj h1 h2), neg_add_cancel]
  · rw [if_neg (fun h => h1 (hfine i hi j hj h)), if_neg h1, if_neg (fun h => h1 h.1), add_zero]

/-! ## Example: the order of the contacts decides -/

/-- `a` meets `b`, and later `b` meets `c`. -/
def relay : List (Event Nat ℝ) := [⟨0, 1, 0, 1⟩, ⟨1, 2, 1, 2⟩]

example : GoodContacts relay := by
  refine ⟨by simp [relay], ?_, ?_, ?_⟩
  · intro e he
    simp only [relay, List.mem_cons, List.not_mem_nil, or_false] at he
    rcases he with rfl | rfl <;> norm_num
  · intro e he
    simp only [relay, List.mem_cons, List.not_mem_nil, or_false] at he
    rcases he with rfl | rfl <;> norm_num
  · simp [relay]

example : NodesOf relay [0, 1, 2] := by
  refine ⟨by decide, fun l => ?_⟩
  simp only [relay, List.mem_cons, List.not_mem_nil, or_false, exists_eq_or_imp, exists_eq_left]
  omega

example : Leads relay 0 2 :=
  ⟨0, .jump (u := 0) le_rfl ⟨⟨0, 1, 0, 1⟩, by simp [relay], le_rfl, by norm_num, .inl ⟨rfl, rfl⟩⟩
    (.jump (u := 1) zero_le_one ⟨⟨1, 2, 1, 2⟩, by simp [relay], le_rfl, by norm_num, .inl ⟨rfl, rfl⟩⟩ (.stay _ _))⟩

/-- Nothing leads from `c` to `a`. -/
theorem relay_back : ¬ Leads relay 2 0 := by
  have key : ∀ s x y, Reaches relay s x y → y = 0 → (x = 2 → False) ∧ (x = 1 → s < 1) := by
    intro s x y hr
    induction hr with
    | stay s x =>
      rintro rfl
      exact ⟨fun h => by omega, fun h => by omega⟩
    | jump h1 h2 _ ih =>
      intro hy
      obtain ⟨i1, i2⟩ := ih hy
      obtain ⟨e, he, e1, e2, e3⟩ := h2
      simp only [relay, List.mem_cons, List.not_mem_nil, or_false] at he
      rcases he with rfl | rfl
      · simp only at e1 e2 e3
        refine ⟨fun h => by omega, fun h => h1.trans_lt e2⟩
      · simp only at e1 e2 e3
        refine ⟨fun h => ?_, fun h => ?_⟩
        · have := i2 (by omega)
          linarith
        · exact (i1 (by omega)).elim
  rintro ⟨s, hr⟩
  exact (key s 2 0 hr rfl).1 rfl

end Verif.Causal
