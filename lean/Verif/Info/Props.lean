import Verif.Info.Lemmas
import Verif.Partition.Lemmas
import Mathlib.Tactic.NormNum

/-!
# Comparison measures: properties C42 and C43
-/

namespace Verif.Info

open Finset

/-! ## C42: normalised variation of information -/

theorem nviLists_value {U : Finset Nat} (hU : U.Nonempty) {cs ds : List (Finset Nat)} (h : Clustering U cs)
    (k : Clustering U ds) (hc : ∅ ∉ cs) (hd : ∅ ∉ ds) {N : Option Nat} (hN : N = none ∨ N = some U.card) :
    nviLists cs ds N = .ok (normVar U cs ds) := by
  have hn : N.getD (cs.map Finset.card).sum = U.card := by
    rcases hN with rfl | rfl
    · exact card_sum h
    · rfl
  have hl : ∀ {es : List (Finset Nat)}, Clustering U es → es.length ≠ 0 := by
    intro es he h0
    obtain ⟨x, hx⟩ := hU
    obtain ⟨c, hc, _⟩ := (he.2 x).1 hx
    rw [List.length_eq_zero_iff.1 h0] at hc
    simp at hc
  have hspec : normVar U cs ds = (cond U (cell cs) (cell ds) + cond U (cell ds) (cell cs)) /
      (U.card * Real.logb 2 U.card) := by
    unfold normVar
    rw [condEntropy_eq h k, condEntropy_eq k h, ← add_div, div_div]
  unfold nviLists
  rw [if_neg (by rintro (h0 | h0); exact hl h h0; exact hl k h0)]
  simp only [hn]
  split
  · next he =>
    congr 1
    rw [hspec, (vi_zero_iff h k).2, zero_div]
    rw [sameClusters_iff h k]
    intro x hx
    rw [singleton_clusters h (he.1.trans he.2) hc hx, singleton_clusters k he.2 hd hx]
  · rw [if_neg (by rintro (h0 | h0); exact hc h0; exact hd h0)]
    have hs := h.perm (sortClusters_perm cs)
    have ks := k.perm (sortClusters_perm ds)
    have hcell : cond U (cell (sortClusters cs)) (cell (sortClusters ds)) +
        cond U (cell (sortClusters ds)) (cell (sortClusters cs)) =
        cond U (cell cs) (cell ds) + cond U (cell ds) (cell cs) := by
      congr 1
      · exact cond_congr (fun x hx => cell_perm h (sortClusters_perm cs) hx)
          fun x hx => cell_perm k (sortClusters_perm ds) hx
      · exact cond_congr (fun x hx => cell_perm k (sortClusters_perm ds) hx)
          fun x hx => cell_perm h (sortClusters_perm cs) hx
    split
    · next he =>
      congr 1
      rw [hspec, ← hcell, he, cond_self ks.cells]
      simp
    · congr 1
      rw [hspec, nviLoop_eq _ _ _ fun c hc => sum_inter ks (hs.subset hc), double_sum hs ks, hcell]
      ring

/-- The clusterings compared in the following theorems: `a` describes clusters `cs` of the
nodes `U`, none of which is empty. -/
def Describes (U : Finset Nat) (a : Arg) (cs : List (Finset Nat)) : Prop :=
  a.toList = .ok cs ∧ Clustering U cs ∧ ∅ ∉ cs

/-- What is a clustering of `U`: a list of clusters, a consistent `Partition`, or a dictionary
whose labels are exactly `0..m`, nodes with equal labels being together. -/
theorem C42_inputs :
    (∀ U cs, Clustering U cs → ∅ ∉ cs → Describes U (.clusters cs) cs) ∧
    (∀ p : Partition.Part, Partition.Consistent p → ∅ ∉ p.clusters →
      Describes (range p.numNodes) (.partition p) p.clusters) ∧
    (∀ (items : List (Nat × Int)) (U : Finset Nat) (m : Nat), (items.map (·.1)).Nodup → items ≠ [] →
      (∀ v, v ∈ items.map (·.1) ↔ v ∈ U) → (∀ l : Int, l ∈ items.map (·.2) ↔ 0 ≤ l ∧ l ≤ m) →
      ∃ cs, Describes U (.dict items) cs ∧ cs.length = m + 1 ∧
        ∀ u v a b, (u, a) ∈ items → (v, b) ∈ items → ((∃ c ∈ cs, u ∈ c ∧ v ∈ c) ↔ a = b)) := by
  refine ⟨fun U cs h h0 => ⟨rfl, h, h0⟩, ?_, ?_⟩
  · intro p hp h0
    refine ⟨rfl, ⟨?_, ?_⟩, h0⟩
    · have hd := hp.1.disj
      rw [List.pairwise_iff_getElem]
      intro i j hi hj hij
      rw [Finset.disjoint_left]
      intro x hx hy
      have h1 : Partition.At p.clusters i x := ⟨_, List.getElem?_eq_getElem hi, hx⟩
      have h2 : Partition.At p.clusters j x := ⟨_, List.getElem?_eq_getElem hj, hy⟩
      have := hd x i j h1 h2
      omega
    · intro x
      rw [mem_range]
      constructor
      · intro hx
        obtain ⟨i, ⟨c, hc, hxc⟩, _⟩ := (hp.1 x).1 hx
        exact ⟨c, List.mem_of_getElem? hc, hxc⟩
      · rintro ⟨c, hc, hxc⟩
        by_contra hx
        obtain ⟨i, hi, rfl⟩ := List.getElem_of_mem hc
        exact (hp.1 x).2 (by omega) i ⟨_, List.getElem?_eq_getElem hi, hxc⟩
  · intro items U m hnd hne hkeys hlab
    obtain ⟨mx, hmx⟩ := Partition.maxValue_some hne
    have hge := Partition.maxValue_ge hmx
    have hmem : ∀ {its : List (Nat × Int)} {M : Int}, Partition.maxValue its = some M → M ∈ its.map (·.2) := by
      intro its
      induction its with
      | nil => intro M h; simp [Partition.maxValue] at h
      | cons a its ih =>
        intro M h
        obtain ⟨v, c⟩ := a
        simp only [Partition.maxValue] at h
        cases hm : Partition.maxValue its with
        | none => rw [hm] at h; simp at h; simp [h]
        | some M' =>
          rw [hm] at h
          simp only [Option.some.injEq] at h
          have := ih hm
          rcases max_choice c M' with hc | hc
          · rw [hc] at h; simp [h]
          · rw [hc] at h; subst h
            simp only [List.map_cons, List.mem_cons]; exact .inr this
    have hmxm : mx = m := by
      have h1 := (hlab mx).1 (hmem hmx)
      obtain ⟨a, ha, ham⟩ := List.mem_map.1 ((hlab m).2 ⟨by omega, le_rfl⟩)
      have := hge a ha
      omega
    have hb : ∀ a ∈ items, 0 ≤ a.2 ∧ a.2 < ((List.replicate (mx + 1).toNat (∅ : Finset Nat)).length : Int) := by
      intro a ha
      have := (hlab a.2).1 (List.mem_map.2 ⟨a, ha, rfl⟩)
      rw [List.length_replicate]
      omega
    obtain ⟨cs, hok, hlen, hat⟩ := Partition.addItems_spec items _ hb
    have hat' : ∀ i v, Partition.At cs i v ↔ (v, (i : Int)) ∈ items := by
      intro i v
      rw [hat]
      simp only [or_iff_right_iff_imp]
      rintro ⟨c, hc, hv⟩
      rw [List.getElem?_replicate] at hc
      split at hc <;> simp at hc
      subst hc; simp at hv
    have hcl : cs.length = m + 1 := by rw [hlen, List.length_replicate]; omega
    have huniq : ∀ i j v, Partition.At cs i v → Partition.At cs j v → i = j := by
      intro i j v hi hj
      have := List.inj_on_of_nodup_map hnd ((hat' _ _).1 hi) ((hat' _ _).1 hj) rfl
      simpa using this
    refine ⟨cs, ⟨?_, ⟨?_, ?_⟩, ?_⟩, hcl, ?_⟩
    · unfold Arg.toList
      simp only [hmx, hok]
    · rw [List.pairwise_iff_getElem]
      intro i j hi hj hij
      rw [Finset.disjoint_left]
      intro x hx hy
      have := huniq i j x ⟨_, List.getElem?_eq_getElem hi, hx⟩ ⟨_, List.getElem?_eq_getElem hj, hy⟩
      omega
    · intro x
      rw [← hkeys]
      constructor
      · intro hx
        obtain ⟨⟨u, l⟩, hm, rfl⟩ := List.mem_map.1 hx
        have h0 := ((hlab l).1 (List.mem_map.2 ⟨_, hm, rfl⟩)).1
        obtain ⟨c, hc, hu⟩ := (hat' l.toNat u).2 (by rw [Int.toNat_of_nonneg h0]; exact hm)
        exact ⟨c, List.mem_of_getElem? hc, hu⟩
      · rintro ⟨c, hc, hx⟩
        obtain ⟨i, hi, rfl⟩ := List.getElem_of_mem hc
        exact List.mem_map.2 ⟨_, (hat' i x).1 ⟨_, List.getElem?_eq_getElem hi, hx⟩, rfl⟩
    · intro h0
      obtain ⟨i, hi, he⟩ := List.getElem_of_mem h0
      obtain ⟨⟨u, l⟩, hm, hl⟩ := List.mem_map.1 ((hlab i).2 ⟨by omega, by omega⟩)
      simp only at hl
      subst hl
      obtain ⟨c, hc, hu⟩ := (hat' i u).2 hm
      rw [List.getElem?_eq_getElem hi, he] at hc
      cases hc
      simp at hu
    · intro u v a b hu hv
      have ha := ((hlab a).1 (List.mem_map.2 ⟨_, hu, rfl⟩)).1
      have hb' := ((hlab b).1 (List.mem_map.2 ⟨_, hv, rfl⟩)).1
      have hAu := (hat' a.toNat u).2 (by rw [Int.toNat_of_nonneg ha]; exact hu)
      have hAv := (hat' b.toNat v).2 (by rw [Int.toNat_of_nonneg hb']; exact hv)
      constructor
      · rintro ⟨c, hc, h1, h2⟩
        obtain ⟨i, hi, rfl⟩ := List.getElem_of_mem hc
        have e1 := huniq _ _ _ hAu ⟨_, List.getElem?_eq_getElem hi, h1⟩
        have e2 := huniq _ _ _ hAv ⟨_, List.getElem?_eq_getElem hi, h2⟩
        omega
      · rintro rfl
        obtain ⟨c, hc, h1⟩ := hAu
        obtain ⟨c', hc', h2⟩ := hAv
        rw [hc] at hc'
        cases hc'
        exact ⟨c, List.mem_of_getElem? hc, h1, h2⟩

/-- **C42** (value): for clusterings of the same nodes without empty clusters the function
returns the normalised variation of information, whether the number of nodes is given or
not.  Missing: empty clusters, see below. -/
theorem C42_value_partial {U : Finset Nat} (hU : U.Nonempty) {a1 a2 : Arg} {cs ds : List (Finset Nat)}
    (h : Describes U a1 cs) (k : Describes U a2 ds) {N : Option Nat} (hN : N = none ∨ N = some U.card) :
    nvi a1 a2 N = .ok (normVar U cs ds) := by
  unfold nvi
  rw [h.1, k.1]
  exact nviLists_value hU h.2.1 k.2.1 h.2.2 k.2.2 hN

theorem normVar_cells {U : Finset Nat} {cs ds : List (Finset Nat)} (h : Clustering U cs) (k : Clustering U ds) :
    normVar U cs ds = (cond U (cell cs) (cell ds) + cond U (cell ds) (cell cs)) / (U.card * Real.logb 2 U.card) := by
  unfold normVar
  rw [condEntropy_eq h k, condEntropy_eq k h, ← add_div, div_div]

/-- **C42** (metric): the function is symmetric, its values are between 0 and 1, it is zero
exactly for equal clusterings and satisfies the triangle inequality. -/
theorem C42_metric_partial {U : Finset Nat} (hU : U.Nonempty) {a1 a2 a3 : Arg} {cs ds es : List (Finset Nat)}
    (h : Describes U a1 cs) (k : Describes U a2 ds) (l : Describes U a3 es) :
    ∃ v12 v21 v13 v32, nvi a1 a2 none = .ok v12 ∧ nvi a2 a1 none = .ok v21 ∧ nvi a1 a3 none = .ok v13 ∧
      nvi a3 a2 none = .ok v32 ∧ v12 = v21 ∧ 0 ≤ v12 ∧ v12 ≤ 1 ∧ (v12 = 0 ↔ SameClusters cs ds) ∧ v12 ≤ v13 + v32 := by
  refine ⟨_, _, _, _, C42_value_partial hU h k (.inl rfl), C42_value_partial hU k h (.inl rfl),
    C42_value_partial hU h l (.inl rfl), C42_value_partial hU l k (.inl rfl), ?_⟩
  obtain ⟨-, h, h0⟩ := h
  obtain ⟨-, k, k0⟩ := k
  obtain ⟨-, l, l0⟩ := l
  rw [normVar_cells h k, normVar_cells k h, normVar_cells h l, normVar_cells l k]
  have hcard : (1 : ℝ) ≤ U.card := by exact_mod_cast Finset.card_pos.2 hU
  have hlog : 0 ≤ Real.logb 2 U.card := Real.logb_nonneg (by norm_num) hcard
  have hden : 0 ≤ (U.card : ℝ) * Real.logb 2 U.card := by positivity
  have c1 := cond_nonneg h.cells k.cells
  have c2 := cond_nonneg k.cells h.cells
  have hle : cond U (cell cs) (cell ds) + cond U (cell ds) (cell cs) ≤ U.card * Real.logb 2 U.card := by
    have e1 := cond_eq h.cells k.cells
    have e2 := cond_eq k.cells h.cells
    have e3 := cond_le_ent h.cells k.cells
    have e4 := ent_le (h.cells.inter k.cells)
    have e5 : ent U (fun x => cell ds x ∩ cell cs x) = ent U (fun x => cell cs x ∩ cell ds x) := by
      unfold ent
      apply Finset.sum_congr rfl
      intro x _
      beta_reduce
      rw [Finset.inter_comm]
    linarith
  refine ⟨by rw [add_comm], by positivity, div_le_one_of_le₀ hle hden, ?_, ?_⟩
  · rw [div_eq_zero_iff, ← vi_zero_iff h k]
    constructor
    · rintro (h | h)
      · exact h
      · linarith
    · exact .inl
  · rw [← add_div]
    apply div_le_div_of_nonneg_right _ hden
    have t1 := cond_triangle h.cells l.cells k.cells
    have t2 := cond_triangle k.cells l.cells h.cells
    linarith

/-- Three nodes: one cluster of two against one cluster of three, and singletons. -/
example : ({0, 1, 2} : Finset Nat).Nonempty ∧ Describes {0, 1, 2} (.clusters [{0, 1}, {2}]) [{0, 1}, {2}] ∧
    Describes {0, 1, 2} (.clusters [{0, 1, 2}]) [{0, 1, 2}] ∧
    Describes {0, 1, 2} (.clusters [{2}, {0}, {1}]) [{2}, {0}, {1}] ∧
    ¬ SameClusters [{0, 1}, {2}] [{0, 1, 2}] := by
  refine ⟨by decide, ⟨rfl, ⟨by decide, ?_⟩, by decide⟩, ⟨rfl, ⟨by decide, ?_⟩, by decide⟩,
    ⟨rfl, ⟨by decide, ?_⟩, by decide⟩, ?_⟩
  · intro x; simp; omega
  · intro x; simp
  · intro x; simp; omega
  · intro h
    exact absurd ((h {2} (by decide)).1 (by decide)) (by decide)

/-- A dictionary with labels 0 and 1, as in the last part of `C42_inputs`. -/
example : (([(5, 1), (7, 0), (9, 1)] : List (Nat × Int)).map (·.1)).Nodup ∧
    ∀ l : Int, l ∈ ([(5, 1), (7, 0), (9, 1)] : List (Nat × Int)).map (·.2) ↔ 0 ≤ l ∧ l ≤ (1 : Nat) := by
  refine ⟨by decide, fun l => ?_⟩
  simp
  omega

theorem toList_of_decide {a : Arg} {l : List (Finset Nat)}
    (h : (match a.toList with | .ok l' => decide (l' = l) | .error _ => false) = true) : a.toList = .ok l := by
  cases ha : a.toList with
  | error e => rw [ha] at h; cases h
  | ok l' =>
    rw [ha] at h
    rw [of_decide_eq_true h]

/-- **C42** is violated for dictionaries that skip a label: two nodes with label 1 against two
nodes with labels 0 and 1 are said to be equal clusterings. -/
theorem C42_skipped_label_violated : nvi (.dict [(0, 1), (1, 1)]) (.dict [(0, 0), (1, 1)]) none = .ok 0 ∧
    nvi (.dict [(0, 0), (1, 0)]) (.dict [(0, 0), (1, 1)]) none = .ok 1 := by
  have h1 : (Arg.dict [(0, 1), (1, 1)]).toList = .ok [∅, {0, 1}] := toList_of_decide (by decide +kernel)
  have h2 : (Arg.dict [(0, 0), (1, 1)]).toList = .ok [{0}, {1}] := toList_of_decide (by decide +kernel)
  have h3 : (Arg.dict [(0, 0), (1, 0)]).toList = .ok [{0, 1}] := toList_of_decide (by decide +kernel)
  constructor
  · unfold nvi
    rw [h1, h2]
    show nviLists [∅, {0, 1}] [{0}, {1}] none = _
    unfold nviLists
    rw [if_neg (by decide)]
    simp only
    rw [if_pos (by decide)]
  · have d1 : Describes {0, 1} (.dict [(0, 0), (1, 0)]) [{0, 1}] :=
      ⟨h3, ⟨by decide, fun x => by simp⟩, by decide⟩
    have d2 : Describes {0, 1} (.dict [(0, 0), (1, 1)]) [{0}, {1}] :=
      ⟨h2, ⟨by decide, fun x => by simp⟩, by decide⟩
    rw [C42_value_partial (by decide) d1 d2 (.inl rfl)]
    congr 1
    unfold normVar condEntropy entropy meet
    have c1 : ({0, 1} : Finset Nat).card = 2 := by decide
    have c2 : (({0, 1} : Finset Nat) ∩ {0}).card = 1 := by decide
    have c3 : (({0, 1} : Finset Nat) ∩ {1}).card = 1 := by decide
    have c4 : (({0} : Finset Nat) ∩ {0, 1}).card = 1 := by decide
    have c5 : (({1} : Finset Nat) ∩ {0, 1}).card = 1 := by decide
    simp only [List.flatMap_cons, List.flatMap_nil, List.map_cons, List.map_nil, List.append_nil, List.sum_cons,
      List.sum_nil, List.cons_append, List.nil_append, c1, c2, c3, c4, c5, Finset.card_singleton]
    have l2 : Real.logb 2 2 = 1 := Real.logb_self_eq_one (by norm_num)
    have l12 : Real.logb 2 (1 / 2) = -1 := by rw [one_div, Real.logb_inv, l2]
    norm_num [l2, l12]

/-- **C42** is violated in general for empty clusters: unless the trivial case applies, the
function fails. -/
theorem C42_empty_cluster_violated {cs ds : List (Finset Nat)} (N : Option Nat) (hc : cs ≠ []) (hd : ds ≠ [])
    (h0 : ∅ ∈ cs ∨ ∅ ∈ ds)
    (hn : ¬ (cs.length = ds.length ∧ ds.length = N.getD (cs.map Finset.card).sum)) :
    nviLists cs ds N = .error .valueError := by
  unfold nviLists
  rw [if_neg (by simp [hc, hd])]
  simp only
  rw [if_neg hn, if_pos h0]

/-- Three nodes in the clusters labelled 0 and 2. -/
example : (Arg.dict [(0, 0), (1, 2), (2, 2)]).toList = .ok [{0}, ∅, {1, 2}] ∧
    ¬ (([{0}, ∅, {1, 2}] : List (Finset Nat)).length = [({0, 1, 2} : Finset Nat)].length ∧
      [({0, 1, 2} : Finset Nat)].length =
        (none : Option Nat).getD (([{0}, ∅, {1, 2}] : List (Finset Nat)).map Finset.card).sum) := by
  refine ⟨toList_of_decide (by decide +kernel), by decide⟩

/-! ## C43: normalised mutual information -/

theorem shannon_eq (p : List ℝ) : shannon p = -(p.map fun x => x * Real.logb 2 x).sum := by
  unfold shannon
  have : ∀ (l : List ℝ) (h : ℝ), l.foldl (fun h x => if x ≠ 0 then h - x * Real.logb 2 x else h) h =
      h - (l.map fun x => x * Real.logb 2 x).sum := by
    intro l
    induction l with
    | nil => simp
    | cons a l ih =>
      intro h
      rw [List.foldl_cons, ih, List.map_cons, List.sum_cons]
      split
      · ring
      · next h0 =>
        rw [not_not] at h0
        rw [h0]; ring
  rw [this]; ring

/-- Everything in one cluster. -/
def OneCluster (U : Finset Nat) (cs : List (Finset Nat)) : Prop := SameClusters cs [U]

theorem entropy_zero_iff {U : Finset Nat} (hU : U.Nonempty) {cs : List (Finset Nat)} (h : Clustering U cs) :
    entropy U cs = 0 ↔ OneCluster U cs := by
  have hcl : Clustering U [U] := ⟨by simp, by simp⟩
  have hcell : ∀ x ∈ U, cell [U] x = U := fun x hx => cell_eq hcl.1 (by simp) hx
  unfold OneCluster
  rw [sameClusters_iff h hcl, entropy_eq h, div_eq_zero_iff]
  have hc : (U.card : ℝ) ≠ 0 := by exact_mod_cast (Finset.card_pos.2 hU).ne'
  simp only [hc, or_false]
  rw [ent_eq_cond h.cells]
  constructor
  · intro h0 x hx
    rw [hcell x hx]
    exact Finset.Subset.antisymm (h.cells.sub x hx) (cond_zero h.cells (cells_all U) h0 hx)
  · intro ha
    have := cond_congr (U := U) (A := cell cs) (B := fun _ => U) (A' := fun _ => U) (B' := fun _ => U)
      (fun x hx => by rw [ha x hx, hcell x hx]) fun _ _ => rfl
    rw [this]
    exact cond_self (cells_all U)

/-- **C43** (value): mutual information divided by the larger entropy, or a division by zero. -/
theorem C43_value {U : Finset Nat} (hU : U.Nonempty) {a1 a2 : Arg} {cs ds : List (Finset Nat)}
    (h1 : a1.toList = .ok cs) (h2 : a2.toList = .ok ds) (h : Clustering U cs) (k : Clustering U ds) :
    nmi a1 a2 = if max (entropy U cs) (entropy U ds) = 0 then .error .zeroDivision
      else .ok (normMutual U cs ds) := by
  have hl : ∀ {es : List (Finset Nat)}, Clustering U es → es.length ≠ 0 := by
    intro es he h0
    obtain ⟨x, hx⟩ := hU
    obtain ⟨c, hc, _⟩ := (he.2 x).1 hx
    rw [List.length_eq_zero_iff.1 h0] at hc
    simp at hc
  unfold nmi
  rw [h1, h2]
  simp only
  rw [if_neg (by rintro (h0 | h0); exact hl h h0; exact hl k h0), card_sum h]
  have e1 : ∀ es : List (Finset Nat), shannon (es.map fun c => (c.card : ℝ) / U.card) = entropy U es := by
    intro es
    rw [shannon_eq, List.map_map]
    rfl
  have e2 : shannon (cs.flatMap fun c => ds.map fun d => ((c ∩ d).card : ℝ) / U.card) = entropy U (meet cs ds) := by
    rw [← e1]
    unfold meet
    rw [List.map_flatMap]
    simp only [List.map_map, Function.comp_def]
  rw [e1, e1, e2]
  rfl

/-- **C43**: on clusterings of the same nodes that do not both put everything into one
cluster, the function is symmetric, between 0 and 1, and 1 exactly for equal clusterings. -/
theorem C43_range {U : Finset Nat} (hU : U.Nonempty) {a1 a2 : Arg} {cs ds : List (Finset Nat)}
    (h1 : a1.toList = .ok cs) (h2 : a2.toList = .ok ds) (h : Clustering U cs) (k : Clustering U ds)
    (hne : ¬ (OneCluster U cs ∧ OneCluster U ds)) :
    ∃ v, nmi a1 a2 = .ok v ∧ nmi a2 a1 = .ok v ∧ 0 ≤ v ∧ v ≤ 1 ∧ (v = 1 ↔ SameClusters cs ds) := by
  have hc : (0 : ℝ) < U.card := by exact_mod_cast Finset.card_pos.2 hU
  have n1 : 0 ≤ entropy U cs := by rw [entropy_eq h]; exact div_nonneg (ent_nonneg h.cells) hc.le
  have n2 : 0 ≤ entropy U ds := by rw [entropy_eq k]; exact div_nonneg (ent_nonneg k.cells) hc.le
  have hmax : 0 < max (entropy U cs) (entropy U ds) := by
    rw [lt_max_iff]
    by_contra hcon
    push Not at hcon
    exact hne ⟨(entropy_zero_iff hU h).1 (le_antisymm hcon.1 n1), (entropy_zero_iff hU k).1 (le_antisymm hcon.2 n2)⟩
  have e12 := condEntropy_eq h k
  have e21 := condEntropy_eq k h
  have d1 : 0 ≤ condEntropy U cs ds := by rw [e12]; exact div_nonneg (cond_nonneg h.cells k.cells) hc.le
  have d2 : 0 ≤ condEntropy U ds cs := by rw [e21]; exact div_nonneg (cond_nonneg k.cells h.cells) hc.le
  have d3 : condEntropy U cs ds ≤ entropy U cs := by
    rw [e12, entropy_eq h]; exact div_le_div_of_nonneg_right (cond_le_ent h.cells k.cells) hc.le
  have hm : entropy U (meet ds cs) = entropy U (meet cs ds) := by
    rw [entropy_eq (k.meet h), entropy_eq (h.meet k)]
    congr 1
    unfold ent
    apply Finset.sum_congr rfl
    intro x hx
    rw [cell_meet h k hx, cell_meet k h hx, Finset.inter_comm]
  unfold condEntropy at d1 d2 d3
  rw [hm] at d2
  refine ⟨normMutual U cs ds, ?_, ?_, ?_, ?_, ?_⟩
  · rw [C43_value hU h1 h2 h k, if_neg hmax.ne']
  · rw [C43_value hU h2 h1 k h, if_neg (by rw [max_comm]; exact hmax.ne')]
    congr 1
    unfold normMutual
    rw [hm, max_comm]
    ring
  · unfold normMutual
    exact div_nonneg (by linarith) hmax.le
  · unfold normMutual
    rw [div_le_one hmax]
    have := le_max_left (entropy U cs) (entropy U ds)
    linarith
  · unfold normMutual
    rw [div_eq_one_iff_eq hmax.ne', ← vi_zero_iff h k]
    have hiff : cond U (cell cs) (cell ds) + cond U (cell ds) (cell cs) = 0 ↔
        condEntropy U cs ds + condEntropy U ds cs = 0 := by
      rw [e12, e21, ← add_div, div_eq_zero_iff]
      simp [hc.ne']
    rw [hiff]
    unfold condEntropy
    rw [hm]
    rcases max_choice (entropy U cs) (entropy U ds) with hx | hx
    · have := le_max_right (entropy U cs) (entropy U ds)
      rw [hx] at this ⊢
      constructor <;> intro <;> linarith
    · have := le_max_left (entropy U cs) (entropy U ds)
      rw [hx] at this ⊢
      constructor <;> intro <;> linarith

/-- **C43**: the division by zero happens exactly when both clusterings have one cluster. -/
theorem C43_one_cluster {U : Finset Nat} (hU : U.Nonempty) {a1 a2 : Arg} {cs ds : List (Finset Nat)}
    (h1 : a1.toList = .ok cs) (h2 : a2.toList = .ok ds) (h : Clustering U cs) (k : Clustering U ds) :
    nmi a1 a2 = .error .zeroDivision ↔ OneCluster U cs ∧ OneCluster U ds := by
  constructor
  · intro he
    by_contra hne
    obtain ⟨v, hv, _⟩ := C43_range hU h1 h2 h k hne
    rw [he] at hv
    cases hv
  · rintro ⟨o1, o2⟩
    rw [C43_value hU h1 h2 h k, if_pos]
    rw [(entropy_zero_iff hU h).2 o1, (entropy_zero_iff hU k).2 o2, max_self]

example : Clustering {0, 1, 2} [{0, 1}, {2}] ∧ ¬ (OneCluster {0, 1, 2} [{0, 1}, {2}] ∧
    OneCluster {0, 1, 2} [{0, 1, 2}]) ∧ OneCluster {0, 1, 2} [{0, 1, 2}, ∅] := by
  refine ⟨⟨by decide, fun x => by simp; omega⟩, fun h => ?_, fun c hc => ?_⟩
  · exact absurd ((h.1 {2} (by decide)).1 (by decide)) (by decide)
  · simp only [List.mem_cons, List.not_mem_nil, or_false, or_iff_left_iff_imp]
    intro h0
    exact absurd h0 (Finset.nonempty_iff_ne_empty.1 hc)

end Verif.Info
