import Verif.Clique.Lemmas
import Verif.Local.Props

/-!
# Groups that meet: property C150
-/

set_option linter.dupNamespace false
set_option linter.unusedSectionVars false

namespace Verif.Clique

open Verif.TempNet Verif.Trans Verif.Flow Verif.EndToEnd Verif.Average Verif.Groups Verif.Noise Verif.Causal Verif.Local Finset MeasureTheory

variable {L : Type} [LinearOrder L]

/-- **C150**.  Let the members of a group be in contact with each other at the moments of `D`, all with all,
and have no other contacts.  Whatever else is in the table, the computed probabilities of the ways
from its members are known: a share `exp (-k / (k - 1) * d / scale)` of the walkers has stayed, where `k` is the size
of the group and `d` the time that it spent together, and the others are spread evenly over the
group; nobody gets outside.  This holds forward and backward in time. -/
theorem C150_group {evs : List (Event L ℝ)} (h : GoodContacts evs) {nodes : List L} (hn : NodesOf evs nodes) (sf : Nat → Bool) {scale : ℝ}
    (hs : 0 < scale) (reverse : Bool) {G : Finset L} (hG : ∀ x ∈ G, x ∈ nodes) (hk : 2 ≤ G.card) {D : Set ℝ} (hm : Meets evs G D) :
    ∃ T, computedTransition sf evs scale reverse = some T ∧
      (∀ x ∈ G, ∀ y ∈ G, prob nodes T x y =
        mixed G.card (Real.exp (-((G.card : ℝ) / (G.card - 1) * (duration D / scale)))) x y) ∧
      ∀ x ∈ G, ∀ y, y ∉ G → prob nodes T x y = 0 := by
  obtain ⟨T, hT, e⟩ := computedTransition_spec h sf hs reverse
  rw [← nodes_unique hn] at e
  have ht := timesOf_spec evs
  have hc := TimesOf.covers ht
  obtain ⟨times, htimes⟩ : ∃ times, times = timesOf (ofEvents evs).events := ⟨_, rfl⟩
  rw [← htimes] at e ht hc
  have hW := walk_exists (rate := 1 / scale) (covers_grid hc nodes) reverse
  have f := e.trans (walkOver_eq ht le_rfl le_rfl hW)
  have hb := walk_block hn hG hk hm hc hW
  have hgap : gap D (at' times 0) (at' times (times.length - 1)) = duration D := by
    unfold gap duration
    rw [Set.inter_eq_left.2]
    intro u hu
    obtain ⟨x, hx, y, hy, hxy⟩ := Finset.one_lt_card.1 (show 1 < G.card by omega)
    obtain ⟨i, hi, rfl⟩ := List.getElem_of_mem (hG x hx)
    obtain ⟨j, hj, rfl⟩ := List.getElem_of_mem (hG y hy)
    exact contact_inside hc ((touch_contact hi hj).2 ((hm _ hx u _).2 ⟨hu, hy, hxy.symm⟩))
  rw [hgap] at hb
  have hcard : ((places nodes G).card : ℝ) = G.card := by rw [card_places hn hG]
  refine ⟨T, hT, ?_, ?_⟩
  · intro x hx y hy
    obtain ⟨i, hi, rfl⟩ := List.getElem_of_mem (hG x hx)
    obtain ⟨j, hj, rfl⟩ := List.getElem_of_mem (hG y hy)
    have hki : (G.card : ℝ) ≠ 0 := by
      have : 0 < G.card := by omega
      exact_mod_cast this.ne'
    unfold prob
    rw [if_pos ⟨hG _ hx, hG _ hy⟩, List.Nodup.idxOf_getElem (nodup_of hn), List.Nodup.idxOf_getElem (nodup_of hn), f i hi j hj,
      hb i ((mem_places hi).2 hx) j hj]
    unfold Mx Pm mixed
    rw [if_pos ((mem_places hj).2 hy), hcard, show 1 / scale * ((G.card : ℝ) / (G.card - 1)) * duration D =
      (G.card : ℝ) / (G.card - 1) * (duration D / scale) by ring]
    by_cases hij : i = j
    · subst hij
      rw [if_pos rfl, if_pos rfl]
      ring
    · rw [if_neg hij, if_neg (fun hh => hij ((nodup_of hn).getElem_inj_iff.1 hh))]
      ring
  · intro x hx y hy
    unfold prob
    by_cases hyn : y ∈ nodes
    · obtain ⟨i, hi, rfl⟩ := List.getElem_of_mem (hG x hx)
      obtain ⟨j, hj, rfl⟩ := List.getElem_of_mem hyn
      rw [if_pos ⟨hG _ hx, hyn⟩, List.Nodup.idxOf_getElem (nodup_of hn), List.Nodup.idxOf_getElem (nodup_of hn), f i hi j hj,
        hb i ((mem_places hi).2 hx) j hj]
      exact Mx_out ((mem_places hi).2 hx) fun hh => hy ((mem_places hj).1 hh)
    · rw [if_neg fun hh => hyn hh.2]

/-! ## Two labels -/

/-- Durations of separate intervals add up. -/
theorem duration_union {l : List (Event L ℝ)} (hl : ∀ e ∈ l, e.start < e.stop)
    (hsep : l.Pairwise fun e f => e.stop ≤ f.start ∨ f.stop ≤ e.start) :
    volume {u | ∃ e ∈ l, e.start ≤ u ∧ u < e.stop} = ENNReal.ofReal (l.map fun e => e.stop - e.start).sum ∧
      0 ≤ (l.map fun e => e.stop - e.start).sum := by
  induction l with
  | nil => simp
  | cons e l ih =>
    obtain ⟨i1, i2⟩ := ih (fun f hf => hl f (by simp [hf])) (List.pairwise_cons.1 hsep).2
    have h1 := hl e (by simp)
    have hset : {u | ∃ f ∈ e :: l, f.start ≤ u ∧ u < f.stop} = Set.Ico e.start e.stop ∪ {u | ∃ f ∈ l, f.start ≤ u ∧ u < f.stop} := by
      ext u
      simp
    have hdis : Disjoint (Set.Ico e.start e.stop) {u | ∃ f ∈ l, f.start ≤ u ∧ u < f.stop} := by
      rw [Set.disjoint_left]
      rintro u ⟨hu1, hu2⟩ ⟨f, hf, hf1, hf2⟩
      rcases (List.pairwise_cons.1 hsep).1 f hf with hh | hh <;> linarith
    rw [hset, measure_union' hdis measurableSet_Ico, i1, Real.volume_Ico, List.map_cons, List.sum_cons, ENNReal.ofReal_add (by linarith) i2]
    exact ⟨rfl, by linarith⟩

/-- **C150**, two labels.  If `x` and `y` have contacts with each other only, the computed probability to get from
one to the other is `(1 - exp (-2 * d / scale)) / 2`, where `d` is the sum of the durations of their contacts: neither
their number nor their times matter, nor the other contacts of the table. -/
theorem C150_pair {evs : List (Event L ℝ)} (h : GoodContacts evs) {nodes : List L} (hn : NodesOf evs nodes) (sf : Nat → Bool) {scale : ℝ}
    (hs : 0 < scale) (reverse : Bool) {x y : L} (hx : x ∈ nodes) (hxy : x ≠ y)
    (honly : ∀ e ∈ evs, (e.src = x ∨ e.src = y ∨ e.tgt = x ∨ e.tgt = y) → (e.src = x ∧ e.tgt = y) ∨ (e.src = y ∧ e.tgt = x)) :
    ∃ T, computedTransition sf evs scale reverse = some T ∧
      prob nodes T x y = (1 - Real.exp (-(2 * contactTime evs x / scale))) / 2 ∧
      prob nodes T x x = (1 + Real.exp (-(2 * contactTime evs x / scale))) / 2 := by
  classical
  obtain ⟨l, hl⟩ : ∃ l, l = evs.filter fun e => e.src = x ∨ e.tgt = x := ⟨_, rfl⟩
  have hmem : ∀ e, e ∈ l ↔ e ∈ evs ∧ ((e.src = x ∧ e.tgt = y) ∨ (e.src = y ∧ e.tgt = x)) := by
    intro e
    rw [hl, List.mem_filter, decide_eq_true_eq]
    constructor
    · rintro ⟨h1, h2⟩
      exact ⟨h1, honly e h1 (by tauto)⟩
    · rintro ⟨h1, h2⟩
      exact ⟨h1, by tauto⟩
  have hm : Meets evs {x, y} {u | ∃ e ∈ l, e.start ≤ u ∧ u < e.stop} := by
    intro a ha u z
    rw [Finset.mem_insert, Finset.mem_singleton] at ha
    simp only [Touch, Set.mem_setOf_eq, Finset.mem_insert, Finset.mem_singleton]
    constructor
    · rintro ⟨e, he, e1, e2, e3⟩
      have h2 := honly e he (by rcases e3 with ⟨rfl, rfl⟩ | ⟨rfl, rfl⟩ <;> tauto)
      have h3 := h.different e he
      refine ⟨⟨e, (hmem e).2 ⟨he, h2⟩, e1, e2⟩, ?_, ?_⟩
      · rcases e3 with ⟨rfl, rfl⟩ | ⟨rfl, rfl⟩ <;> tauto
      · rcases e3 with ⟨rfl, rfl⟩ | ⟨rfl, rfl⟩
        · exact h3.symm
        · exact h3
    · rintro ⟨⟨e, he, e1, e2⟩, hz, hne⟩
      obtain ⟨he, h2⟩ := (hmem e).1 he
      refine ⟨e, he, e1, e2, ?_⟩
      rcases ha with rfl | rfl <;> rcases hz with rfl | rfl <;> tauto
  have hy : y ∈ nodes := by
    obtain ⟨e, he, h1⟩ := (hn.2 x).1 hx
    rcases honly e he (by rcases h1 with rfl | rfl <;> tauto) with ⟨-, h2⟩ | ⟨h2, -⟩
    · exact (hn.2 y).2 ⟨e, he, .inr h2.symm⟩
    · exact (hn.2 y).2 ⟨e, he, .inl h2.symm⟩
  have hcard : ({x, y} : Finset L).card = 2 := Finset.card_pair hxy
  obtain ⟨T, hT, h1, -⟩ := C150_group h hn sf hs reverse (G := {x, y})
    (by intro a ha; rw [Finset.mem_insert, Finset.mem_singleton] at ha; rcases ha with rfl | rfl <;> assumption) (by rw [hcard]) hm
  have hdur : duration {u | ∃ e ∈ l, e.start ≤ u ∧ u < e.stop} = contactTime evs x := by
    have hsep : l.Pairwise fun e f => e.stop ≤ f.start ∨ f.stop ≤ e.start := by
      have h2 : l.Pairwise fun e f => ((e.src = f.src ∧ e.tgt = f.tgt) ∨ (e.src = f.tgt ∧ e.tgt = f.src)) →
          e.stop ≤ f.start ∨ f.stop ≤ e.start := by
        rw [hl]
        exact h.separate.filter _
      refine h2.imp_of_mem ?_
      intro e f he hf hh
      refine hh ?_
      have e1 := ((hmem e).1 he).2
      have f1 := ((hmem f).1 hf).2
      rcases e1 with ⟨r1, r2⟩ | ⟨r1, r2⟩ <;> rcases f1 with ⟨r3, r4⟩ | ⟨r3, r4⟩ <;> rw [r1, r2, r3, r4] <;> simp
    obtain ⟨d1, d2⟩ := duration_union (fun e he => h.lasting e ((hmem e).1 he).1) hsep
    unfold duration contactTime
    rw [d1, ENNReal.toReal_ofReal d2, hl]
  refine ⟨T, hT, ?_, ?_⟩
  · rw [h1 x (by simp) y (by simp), hcard, hdur]
    unfold mixed
    rw [if_neg hxy, show ((2 : ℕ) : ℝ) / ((2 : ℕ) - 1) * (contactTime evs x / scale) = 2 * contactTime evs x / scale by norm_num; ring]
    push_cast
    ring
  · rw [h1 x (by simp) x (by simp), hcard, hdur]
    unfold mixed
    rw [if_pos rfl, show ((2 : ℕ) : ℝ) / ((2 : ℕ) - 1) * (contactTime evs x / scale) = 2 * contactTime evs x / scale by norm_num; ring]
    push_cast
    ring

theorem mixed_lt {k : Nat} (hk : 2 ≤ k) {x y : L} (hxy : x ≠ y) {a b : ℝ} (h0 : 0 ≤ a) (hab : a < b) :
    0 ≤ mixed k (Real.exp (-((k : ℝ) / (k - 1) * a))) x y ∧
      mixed k (Real.exp (-((k : ℝ) / (k - 1) * a))) x y < mixed k (Real.exp (-((k : ℝ) / (k - 1) * b))) x y ∧
      mixed k (Real.exp (-((k : ℝ) / (k - 1) * b))) x y < 1 / k := by
  have hk' : (2 : ℝ) ≤ k := by exact_mod_cast hk
  have hp : 0 < (k : ℝ) / (k - 1) := div_pos (by linarith) (by linarith)
  have h1 : Real.exp (-((k : ℝ) / (k - 1) * b)) < Real.exp (-((k : ℝ) / (k - 1) * a)) :=
    Real.exp_lt_exp.2 (neg_lt_neg (mul_lt_mul_of_pos_left hab hp))
  have h2 : Real.exp (-((k : ℝ) / (k - 1) * a)) ≤ 1 := Real.exp_le_one_iff.2 (neg_nonpos.2 (mul_nonneg hp.le h0))
  have h3 := Real.exp_pos (-((k : ℝ) / (k - 1) * b))
  unfold mixed
  rw [if_neg hxy]
  simp only [mul_zero, zero_add]
  refine ⟨div_nonneg (by linarith) (by linarith), ?_, ?_⟩
  · exact div_lt_div_of_pos_right (by linarith) (by linarith)
  · exact div_lt_div_of_pos_right (by linarith) (by linarith)

/-- **C150**, mixing.  The shorter the waiting time, the more walkers of a group that spends time together are at another
member; their share always stays below one over the size of the group. -/
theorem C150_mixing {evs : List (Event L ℝ)} (h : GoodContacts evs) {nodes : List L} (hn : NodesOf evs nodes) (sf : Nat → Bool) {scale scale' : ℝ}
    (hs' : 0 < scale') (hss : scale' < scale) (reverse : Bool) {G : Finset L} (hG : ∀ x ∈ G, x ∈ nodes) (hk : 2 ≤ G.card) {D : Set ℝ}
    (hm : Meets evs G D) (hd : 0 < duration D) :
    ∃ T T', computedTransition sf evs scale reverse = some T ∧ computedTransition sf evs scale' reverse = some T' ∧
      ∀ x ∈ G, ∀ y ∈ G, x ≠ y → 0 ≤ prob nodes T x y ∧ prob nodes T x y < prob nodes T' x y ∧ prob nodes T' x y < 1 / G.card := by
  obtain ⟨T, hT, h1, -⟩ := C150_group h hn sf (hs'.trans hss) reverse hG hk hm
  obtain ⟨T', hT', h1', -⟩ := C150_group h hn sf hs' reverse hG hk hm
  refine ⟨T, T', hT, hT', fun x hx y hy hxy => ?_⟩
  rw [h1 x hx y hy, h1' x hx y hy]
  exact mixed_lt hk hxy (div_nonneg hd.le (hs'.trans hss).le) (div_lt_div_of_pos_left hd hs' hss)

/-! ## Example: two labels that meet twice, and three that meet once -/

/-- Labels 0 and 1 meet from 0 to 1 and from 3 to 5, labels 2, 3 and 4 from 1 to 4. -/
def party : List (Event Nat ℝ) := [⟨0, 1, 0, 1⟩, ⟨2, 3, 1, 4⟩, ⟨3, 4, 1, 4⟩, ⟨4, 2, 1, 4⟩, ⟨1, 0, 3, 5⟩]

example : GoodContacts party := by
  refine ⟨by simp [party], ?_, ?_, ?_⟩
  · intro e he
    simp only [party, List.mem_cons, List.not_mem_nil, or_false] at he
    rcases he with rfl | rfl | rfl | rfl | rfl <;> norm_num
  · intro e he
    simp only [party, List.mem_cons, List.not_mem_nil, or_false] at he
    rcases he with rfl | rfl | rfl | rfl | rfl <;> norm_num
  · simp [party]

example : NodesOf party [0, 1, 2, 3, 4] := by
  refine ⟨by decide, fun l => ?_⟩
  simp only [party, List.mem_cons, List.not_mem_nil, or_false, exists_eq_or_imp, exists_eq_left]
  omega

example : (∀ e ∈ party, (e.src = 0 ∨ e.src = 1 ∨ e.tgt = 0 ∨ e.tgt = 1) → (e.src = 0 ∧ e.tgt = 1) ∨ (e.src = 1 ∧ e.tgt = 0)) ∧
    contactTime party 0 = 3 := by
  constructor
  · intro e he
    simp only [party, List.mem_cons, List.not_mem_nil, or_false] at he
    rcases he with rfl | rfl | rfl | rfl | rfl <;> simp
  · simp [contactTime, party]
    norm_num

example : Meets party {2, 3, 4} (Set.Ico 1 4) ∧ duration (Set.Ico 1 4) = 3 := by
  constructor
  · intro x hx u z
    simp only [Finset.mem_insert, Finset.mem_singleton] at hx
    simp only [Touch, party, List.mem_cons, List.not_mem_nil, or_false, exists_eq_or_imp, exists_eq_left, Finset.mem_insert,
      Finset.mem_singleton, Set.mem_Ico]
    by_cases c1 : (1 : ℝ) ≤ u <;> by_cases c2 : u < (4 : ℝ) <;> rcases hx with rfl | rfl | rfl <;> simp [c1, c2] <;> omega
  · unfold duration
    rw [Real.volume_Ico, ENNReal.toReal_ofReal] <;> norm_num

end Verif.Clique
