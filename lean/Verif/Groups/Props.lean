import Verif.EndToEnd.Props
import Verif.Average.Contacts
import Verif.SparseLouvain.Props

/-!
# Communities join only nodes that contacts link: property C129
-/

set_option linter.dupNamespace false
set_option linter.unusedSectionVars false

namespace Verif.Groups

open Verif.Partition Verif.TempNet Verif.Trans Verif.Flow Verif.EndToEnd Verif.Louvain Verif.FlowStability Verif.Average Finset

variable {L : Type} [LinearOrder L]

/-- No cluster has two labels that are not joined by a chain of contacts. -/
def OnlyLinked (evs : List (Event L ℝ)) (nodes : List L) (cl : List (Finset Nat)) : Prop :=
  ∀ c ∈ cl, ∀ i ∈ c, ∀ j ∈ c, ∀ x y, nodes[i]? = some x → nodes[j]? = some y → Linked evs x y

theorem onlyLinked_of {evs : List (Event L ℝ)} {nodes : List L} {cl : List (Finset Nat)} (h : Unmixed (group evs nodes) cl) :
    OnlyLinked evs nodes cl := by
  intro c hc i hi j hj x y hx hy
  obtain ⟨k, hk⟩ := List.getElem?_of_mem hc
  exact (group_eq hx hy).1 (h i j ⟨k, ⟨c, hk, hi⟩, ⟨c, hk, hj⟩⟩)

/-- **C129**, the whole analysis.  For all contacts that last, connect different labels and do not
overlap for a pair, all positive time scales, all random choices and limits: the communities that
an analysis finds, forward and backward in time, join only labels that are linked by a chain of
contacts. -/
theorem C129_communities (sf : Nat → Bool) (sc0 : Sched) (par0 : Params ℝ) {evs : List (Event L ℝ)} (hG : GoodContacts evs)
    {scales : List Rat} (hne : scales ≠ []) (hpos : ∀ q ∈ scales, 0 < q) (kw : Kw L) (hkw : ∀ e, kw ≠ .network e) :
    ∃ w : FWorld (NetObj L) FlowObj,
      FlowStability.construct none none none (some (.items (.reusable (scales.map some)))) (some (.int 0)) = .ok w ∧
      (runF (ext sf sc0 par0) w (steps evs kw)).current = 5 ∧
      ∀ nodes, NodesOf evs nodes → ∀ q ∈ scales,
        (∃ f p, (runF (ext sf sc0 par0) w (steps evs kw)).obj.forward (some q) = some (some f) ∧ f.partition = some p ∧
          OnlyLinked evs nodes p.clusters) ∧
        ∃ f p, (runF (ext sf sc0 par0) w (steps evs kw)).obj.backward (some q) = some (some f) ∧ f.partition = some p ∧
          OnlyLinked evs nodes p.clusters := by
  obtain ⟨w, hw, h1, h2⟩ := constructed (L := L) hpos none none
  obtain ⟨w', V, r1, -, r3, -, -, -, r5, r6⟩ := pipeline sf sc0 par0 h1 h2 hG hne hpos kw hkw
  refine ⟨w, hw, by rw [r1]; exact r3, ?_⟩
  intro nodes hn q hq
  rw [r1, nodes_unique hn]
  obtain ⟨f, h1, -, p, h2, -, h3⟩ := r5 q hq
  obtain ⟨g, e1, -, p', e2, -, e3⟩ := r6 q hq
  exact ⟨⟨f, p, h1, h2, onlyLinked_of h3.1⟩, ⟨g, p', e1, e2, onlyLinked_of e3.1⟩⟩

theorem flowCov_lower {evs : List (Event L ℝ)} (h : GoodContacts evs) (sf : Nat → Bool) {scale : ℝ} (hs : 0 < scale)
    (reverse : Bool) {i j : Nat} (hi : i < (allLabels evs).length) (hj : j < (allLabels evs).length) :
    -(1 / ((allLabels evs).length : ℝ) ^ 2) ≤ flowCov evs (allLabels evs) (timesOf (ofEvents evs).events) scale reverse i j := by
  have h2 := times_two h
  have hinc := (C32_time_grid (ofEvents evs).events).1
  obtain ⟨Lp, hL, hM⟩ := mats_spec h sf
  obtain ⟨hst, hW⟩ := hM scale hs
  unfold flowCov
  set Ms := (List.range ((timesOf (ofEvents evs).events).length - 1)).map
    (walkStep evs (allLabels evs) (timesOf (ofEvents evs).events) scale) with hMs
  have hl : Ms.length = (timesOf (ofEvents evs).events).length - 1 := by simp [hMs]
  have hst' : ∀ A ∈ Ms, Stoch (allLabels evs).length A := by
    intro A hA
    obtain ⟨k, hk, rfl⟩ := List.getElem_of_mem hA
    have hk' : k < (interMats (allLabels evs).length (expm (allLabels evs).length) (timesOf (ofEvents evs).events) Lp (1 / scale) false).length := by
      rw [hW.length_eq]; exact hk
    have e := (List.forall₂_iff_get.1 hW).2 k hk' hk
    simp only [List.get_eq_getElem] at e
    exact stoch_congr (fun i hi j hj => (e i hi j hj).symm) (hst _ (List.getElem_mem hk'))
  have := meanCov_lower (n := (allLabels evs).length) (p := fun _ => 1 / ((allLabels evs).length : ℝ))
    (l := flowSteps (allLabels evs).length reverse Ms (timesOf (ofEvents evs).events) Ms.length)
    (fun _ _ => by positivity) (flowSteps_ne (by omega)) (fun e he => (mem_flowSteps hinc le_rfl (by omega) he).1) ?_ hi hj
  · rwa [← sq, div_pow, one_pow] at this
  · intro e he
    obtain ⟨-, l, hl, e2⟩ := mem_flowSteps hinc le_rfl (by omega) he
    rw [e2]
    exact fun i hi => (stoch_prod (fun A hA => hst' A (hl A hA)) i hi).1

/-- **C129**, covariances.  The covariance of two labels that are not linked is minus the square
of the probability of a label, and no covariance is smaller. -/
theorem C129_covariance {evs : List (Event L ℝ)} (h : GoodContacts evs) (sf : Nat → Bool) {scale : ℝ} (hs : 0 < scale)
    (reverse : Bool) {nodes : List L} (hn : NodesOf evs nodes) :
    ∃ S, computedFlow sf evs scale reverse = some S ∧ ∀ i j (hi : i < nodes.length) (hj : j < nodes.length),
      -(1 / (nodes.length : ℝ) ^ 2) ≤ S i j ∧
      (¬ Linked evs nodes[i] nodes[j] → S i j = -(1 / (nodes.length : ℝ) ^ 2)) := by
  obtain ⟨S, hS, hE⟩ := computedFlow_spec h sf hs reverse
  refine ⟨S, hS, ?_⟩
  have e := nodes_unique hn
  subst e
  intro i j hi hj
  rw [hE i hi j hj]
  refine ⟨flowCov_lower h sf hs reverse hi hj, fun hl => ?_⟩
  refine flowCov_apart (C32_time_grid _).1 (times_two h) scale reverse hi hj fun hg => hl ?_
  exact (group_eq (List.getElem?_eq_getElem hi) (List.getElem?_eq_getElem hj)).1 hg

open Classical in
/-- **C129**, splitting.  To split the clusters of a partition so that only linked labels stay
together adds the square of the probability of a label to the stability for every ordered pair of
labels that is separated.  A partition with a cluster that joins labels that are not linked is
therefore never the best one. -/
theorem C129_split {evs : List (Event L ℝ)} (h : GoodContacts evs) (sf : Nat → Bool) {scale : ℝ} (hs : 0 < scale)
    (reverse : Bool) {nodes : List L} (hn : NodesOf evs nodes) {cl cl' : List (Finset Nat)}
    (hsplit : ∀ i j (hi : i < nodes.length) (hj : j < nodes.length),
      (∃ c ∈ cl', i ∈ c ∧ j ∈ c) ↔ (∃ c ∈ cl, i ∈ c ∧ j ∈ c) ∧ Linked evs nodes[i] nodes[j]) :
    ∃ S, computedFlow sf evs scale reverse = some S ∧
      within nodes.length S cl' = within nodes.length S cl +
        ((univ : Finset (Fin nodes.length × Fin nodes.length)).filter fun e =>
          (∃ c ∈ cl, (e.1 : Nat) ∈ c ∧ (e.2 : Nat) ∈ c) ∧ ¬ Linked evs nodes[e.1] nodes[e.2]).card / (nodes.length : ℝ) ^ 2 ∧
      ((∃ c ∈ cl, ∃ i ∈ c, ∃ j ∈ c, ∃ x y, nodes[i]? = some x ∧ nodes[j]? = some y ∧ ¬ Linked evs x y) →
        within nodes.length S cl < within nodes.length S cl') := by
  obtain ⟨S, hS, hC⟩ := C129_covariance h sf hs reverse hn
  have hpos : 0 < nodes.length := by
    rw [nodes_unique hn]
    exact nodes_pos h.nonempty
  have hn0 : (0 : ℝ) < (nodes.length : ℝ) ^ 2 := by
    have : (0 : ℝ) < (nodes.length : ℝ) := by exact_mod_cast hpos
    positivity
  have key : within nodes.length S cl' = within nodes.length S cl +
        ((univ : Finset (Fin nodes.length × Fin nodes.length)).filter fun e =>
          (∃ c ∈ cl, (e.1 : Nat) ∈ c ∧ (e.2 : Nat) ∈ c) ∧ ¬ Linked evs nodes[e.1] nodes[e.2]).card / (nodes.length : ℝ) ^ 2 := by
    have hcard : ((((univ : Finset (Fin nodes.length × Fin nodes.length)).filter fun e =>
          (∃ c ∈ cl, (e.1 : Nat) ∈ c ∧ (e.2 : Nat) ∈ c) ∧ ¬ Linked evs nodes[e.1] nodes[e.2]).card : ℝ)) / (nodes.length : ℝ) ^ 2 =
        ∑ i : Fin nodes.length, ∑ j : Fin nodes.length,
          if (∃ c ∈ cl, (i : Nat) ∈ c ∧ (j : Nat) ∈ c) ∧ ¬ Linked evs nodes[i] nodes[j] then 1 / (nodes.length : ℝ) ^ 2 else 0 := by
      rw [← Finset.sum_product', ← Finset.sum_filter, Finset.sum_const, nsmul_eq_mul, mul_one_div]
      rfl
    rw [hcard]
    unfold within
    simp only [Finset.sum_range]
    rw [← Finset.sum_add_distrib]
    refine Finset.sum_congr rfl fun i _ => ?_
    rw [← Finset.sum_add_distrib]
    refine Finset.sum_congr rfl fun j _ => ?_
    have hs := hsplit i j i.2 j.2
    have hc := (hC i j i.2 j.2).2
    by_cases h1 : ∃ c ∈ cl, (i : Nat) ∈ c ∧ (j : Nat) ∈ c
    · by_cases h2 : Linked evs nodes[i] nodes[j]
      · rw [if_pos (hs.2 ⟨h1, h2⟩), if_pos h1, if_neg (fun h => h.2 h2), add_zero]
      · rw [if_neg (fun h => h2 (hs.1 h).2), if_pos h1, if_pos ⟨h1, h2⟩, hc h2, neg_add_cancel]
    · rw [if_neg (fun h => h1 (hs.1 h).1), if_neg h1, if_neg (fun h => h1 h.1), add_zero]
  refine ⟨S, hS, key, ?_⟩
  rintro ⟨c, hc, i, hi, j, hj, x, y, hx, hy, hl⟩
  rw [key]
  have hi' := (List.getElem?_eq_some_iff.1 hx).1
  have hj' := (List.getElem?_eq_some_iff.1 hy).1
  have hxe : nodes[i] = x := (List.getElem?_eq_some_iff.1 hx).2
  have hye : nodes[j] = y := (List.getElem?_eq_some_iff.1 hy).2
  have : 0 < ((univ : Finset (Fin nodes.length × Fin nodes.length)).filter fun e =>
          (∃ c ∈ cl, (e.1 : Nat) ∈ c ∧ (e.2 : Nat) ∈ c) ∧ ¬ Linked evs nodes[e.1] nodes[e.2]).card := by
    apply Finset.card_pos.2
    refine ⟨(⟨i, hi'⟩, ⟨j, hj'⟩), Finset.mem_filter.2 ⟨Finset.mem_univ _, ⟨c, hc, hi, hj⟩, ?_⟩⟩
    show ¬ Linked evs nodes[i] nodes[j]
    rw [hxe, hye]
    exact hl
  have : (0 : ℝ) < ((univ : Finset (Fin nodes.length × Fin nodes.length)).filter fun e =>
          (∃ c ∈ cl, (e.1 : Nat) ∈ c ∧ (e.2 : Nat) ∈ c) ∧ ¬ Linked evs nodes[e.1] nodes[e.2]).card := by exact_mod_cast this
  have := div_pos this hn0
  linarith

open Verif.SparseLouvain in
/-- **C129**, the sparse search.  If the stored entries stay in the groups, the search of the
sparse class never puts nodes of two groups in one cluster. -/
theorem C129_sparse {K : Type} [Field K] [LinearOrder K] [IsStrictOrderedRing K] {α : Type} {grp : Nat → α} (sc : Sched)
    (par : Params K) (c : SClu K) (f : Fit c.A) (hfresh : Fresh c) (hz : c.A.isAllZeros = false)
    (hT : Closed c.A.PT.nrows c.A.PT.val grp) :
    ∃ k p, sFindLouvain sc par c = .ok (k, p) ∧ Unmixed grp p.clusters := by
  obtain ⟨k, p, hres, -⟩ := C69_no_worse_partial sc par c f hfresh hz
  refine ⟨k, p, hres, ?_⟩
  obtain ⟨h1, h2, h3⟩ := fresh_part hfresh
  have hne : ∀ cl ∈ c.part.clusters, cl.Nonempty := by
    rw [h3]; exact Verif.Louvain.singletons_nonempty _
  have hlen : c.part.clusters.length = c.A.PT.nrows := by rw [h3]; simp [singletons]
  have hd : Dense c.A c.A.toarray c.A.PT.val :=
    ⟨fun _ _ _ _ => rfl, fun i hi j _ => val_nonneg f.tight i j hi, fun _ _ _ _ => Iff.rfl⟩
  have heq := (sMetaLoop_eq f.fit0 False (Or.inl f.nonempty) (hd.dense0 f) False.elim sc par
    (par.nMeta + 3) 0 1 false c.part c
    ⟨c.A.PT.nrows, c.A.PT.val, c.A.toarray, c.part⟩ h1 h2 hne False.elim
    (Or.inr ⟨rel_base f.fit0 (Or.inl f.nonempty) (hd.dense0 f), rfl, h1, h2, hlen.symm,
      False.elim⟩)).1
  unfold sFindLouvain at hres
  rw [hz, mkS_same hfresh] at hres
  simp only [Bool.false_eq_true, if_false] at hres
  rw [heq] at hres
  have hg : ∀ i < c.A.PT.nrows, groupOf grp c.part.clusters i = grp i := by
    intro i hi
    rw [h3]
    exact groupOf_singletons grp hi
  match hm : metaLoop sc par c.A.PT.val c.A.toarray (par.nMeta + 3) 0 1 false c.part
      ⟨c.A.PT.nrows, c.A.PT.val, c.A.toarray, c.part⟩ with
  | .error e => rw [hm] at hres; simp [lift] at hres
  | .ok (k', p') =>
    rw [hm] at hres
    simp only [lift, Except.ok.injEq, Prod.mk.injEq] at hres
    obtain ⟨rfl, rfl⟩ := hres
    refine metaLoop_unmixed sc par c.A.PT.val c.A.toarray _ 0 1 false c.part _ h1 (by rw [h2]; exact f.pos) hne
      (by rw [h2]; exact hT) (by rw [h3]; exact unmixed_singletons _ _) (.inr ⟨h1, h2, hlen.symm, ?_, ?_⟩) _ _ hm
    · intro i hi j hj hne
      dsimp only at hi hj hne
      rw [hg i hi, hg j hj]
      exact hT i hi j hj hne
    · dsimp only
      rw [h3]
      exact unmixed_singletons _ _

/-- **C129**, the exception.  If all covariances given to the search are negligible, it joins all
nodes, whatever the groups. -/
theorem C129_negligible {K : Type} [Field K] [LinearOrder K] [IsStrictOrderedRing K] {α : Type} {grp : Nat → α} (sc : Sched)
    (par : Params K) (c : Clu K) (hc : Consistent c.part) (hnum : c.part.numNodes = c.n) (hS : sIsZero c.n c.S) {i j : Nat}
    (hi : i < c.n) (hj : j < c.n) (hg : grp i ≠ grp j) :
    ∃ p, findLouvain sc par c = .ok (0, p) ∧ ¬ Unmixed grp p.clusters := by
  obtain ⟨p, h1, -, h2, -⟩ := C29_negligible_covariance_partial sc par c hc hnum (by omega) hS
  exact ⟨p, h1, fun h => hg (h i j (h2 i hi j hj))⟩

/-- **C129**, the exception occurs: for walkers that all start at one node, all covariances
vanish, whatever the transitions. -/
theorem C129_one_start {K : Type} [Field K] [LinearOrder K] [IsStrictOrderedRing K] {n : Nat} {T : Mat K} (hT : Stoch n T)
    {a : Nat} (ha : a < n) : EqOn n (covAt n (fun i => if i = a then 1 else 0) T) fun _ _ => 0 := by
  have hafter : ∀ k, after n (fun i => if i = a then 1 else 0) T k = T a k := by
    intro k
    unfold after
    simp [ha]
  intro i hi j hj
  unfold covAt
  simp only [hafter]
  by_cases hia : i = a
  · by_cases hja : j = a
    · subst hja
      subst hia
      have e : ∀ k ∈ range n, (if T i k = 0 then 0 else ((if i = i then (1 : K) else 0) * T i k) * ((if i = i then (1 : K) else 0) * T i k) / T i k) = T i k := by
        intro k _
        split
        · rename_i h0; rw [h0]
        · rename_i h0
          rw [if_pos rfl, one_mul, mul_div_assoc, div_self h0, mul_one]
      rw [Finset.sum_congr rfl e, (hT i hi).2, if_pos rfl, one_mul, sub_self]
    · simp [hja]
  · simp [hia]

/-! ## The hypotheses can be met -/

/-- Two pairs that never meet. -/
def exEvs : List (Event Nat ℝ) := [⟨1, 2, 0, 1⟩, ⟨5, 6, 0, 2⟩]

example : GoodContacts exEvs ∧ NodesOf exEvs [1, 2, 5, 6] ∧ Linked exEvs 1 2 ∧ ¬ Linked exEvs 1 5 := by
  refine ⟨⟨by simp [exEvs], by simp [exEvs], by simp [exEvs], by simp [exEvs]⟩, ⟨by simp, ?_⟩, ?_, ?_⟩
  · intro l
    simp only [exEvs, List.mem_cons, List.not_mem_nil, or_false, exists_eq_or_imp, exists_eq_left]
    tauto
  · exact .rel _ _ ⟨⟨1, 2, 0, 1⟩, by simp [exEvs], rfl, rfl⟩
  · intro h
    have key : ∀ x y, Linked exEvs x y → (x ≤ 2 ↔ y ≤ 2) := by
      intro x y h
      induction h with
      | rel x y h =>
        obtain ⟨e, he, rfl, rfl⟩ := h
        simp only [exEvs, List.mem_cons, List.not_mem_nil, or_false] at he
        rcases he with rfl | rfl <;> simp
      | refl x => exact Iff.rfl
      | symm x y _ ih => exact ih.symm
      | trans x y z _ _ a b => exact a.trans b
    have := (key 1 5 h).1 (by norm_num)
    omega

/-- The clusters `{0, 2}` and `{1, 3}` join labels that are not linked; the single labels do
not. -/
example : ∃ c ∈ [({0, 2} : Finset Nat), {1, 3}], (0 : Nat) ∈ c ∧ 2 ∈ c := ⟨{0, 2}, by simp, by simp, by simp⟩

/-- Transitions within two groups, and a search that may be started. -/
example : Closed 4 (fun i j : Nat => if i / 2 = j / 2 then (1 / 2 : ℚ) else 0) (fun i => i / 2) ∧
    ¬ sIsZero 4 (fun i j : Nat => if i / 2 = j / 2 then (1 / 16 : ℚ) else -1 / 16) := by
  refine ⟨?_, by decide +kernel⟩
  intro i _ j _ h
  by_contra hn
  simp [hn] at h

/-- The stored entries of the example of C69 stay in the groups `{0, 1}` and `{2}`. -/
example : Closed SparseLouvain.exA.PT.nrows SparseLouvain.exA.PT.val (fun i => decide (i = 2)) := by
  unfold Closed
  decide +kernel

end Verif.Groups
