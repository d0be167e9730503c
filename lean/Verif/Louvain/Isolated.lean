import Verif.Louvain.Lemmas

/-!
# A node without neighbours stays alone in the first cluster
-/

set_option linter.unusedSectionVars false

namespace Verif.Louvain

open Verif.Partition

variable {K : Type} [Field K] [LinearOrder K] [IsStrictOrderedRing K]

/-- A dictionary in which every number up to the largest is used keeps its numbers. -/
theorem mk'_dict_at (n : Nat) (items : List (Nat × Int)) (hpos : ∀ a ∈ items, 0 ≤ a.2)
    (hne : items ≠ []) (hcov : ∀ a ∈ items, ∀ i : Nat, (i : Int) ≤ a.2 → ∃ v, (v, (i : Int)) ∈ items) :
    ∃ p, mk' n (.nodeDict items) false = .ok p ∧
      ∀ i v, At p.clusters i v ↔ (v, (i : Int)) ∈ items := by
  obtain ⟨m, hm⟩ := maxValue_some hne
  obtain ⟨cl, hok, hlen, hat⟩ := addItems_spec items (List.replicate (m + 1).toNat ∅) (by
    intro a ha
    have h1 := maxValue_ge hm a ha
    have h2 := hpos a ha
    rw [List.length_replicate]
    omega)
  have hat' : ∀ i v, At cl i v ↔ (v, (i : Int)) ∈ items := by
    intro i v
    rw [hat i v]
    constructor
    · rintro (h | h)
      · unfold At at h
        obtain ⟨c, hc, hv⟩ := h
        rw [List.getElem?_replicate] at hc
        split at hc
        · simp at hc; subst hc; simp at hv
        · simp at hc
      · exact h
    · exact Or.inr
  have hmax : ∃ a ∈ items, a.2 = m := by
    clear hok hat hat' hcov hpos hlen
    induction items generalizing m with
    | nil => simp at hne
    | cons a items ih =>
      obtain ⟨u, c⟩ := a
      unfold maxValue at hm
      split at hm
      · injection hm with hm
        exact ⟨(u, c), by simp, hm⟩
      · rename_i m' hm'
        injection hm with hm
        have hne' : items ≠ [] := by
          intro h
          rw [h] at hm'
          simp [maxValue] at hm'
        by_cases hcm : m' ≤ c
        · exact ⟨(u, c), by simp, by rw [← hm, max_eq_left hcm]⟩
        · obtain ⟨a, ha, hae⟩ := ih hne' m' hm'
          exact ⟨a, by simp [ha], by rw [hae, ← hm, max_eq_right (by omega)]⟩
  obtain ⟨a, ha, ham⟩ := hmax
  have hfil : cl.filter (fun c => decide (0 < c.card)) = cl := by
    rw [List.filter_eq_self]
    intro c hc
    obtain ⟨i, hi⟩ := List.mem_iff_getElem?.1 hc
    have hil : i < cl.length := (List.getElem?_eq_some_iff.1 hi).1
    rw [hlen, List.length_replicate] at hil
    obtain ⟨v, hv⟩ := hcov a ha i (by omega)
    obtain ⟨c', hc', hvc⟩ := (hat' i v).2 hv
    rw [hi] at hc'
    injection hc' with hc'
    subst hc'
    simpa using Finset.card_pos.2 ⟨v, hvc⟩
  refine ⟨removeEmpty ⟨n, cl, dictOf cl⟩, ?_, ?_⟩
  · unfold mk'
    simp only [hm, hok]
    rfl
  · unfold removeEmpty
    dsimp only
    rw [hfil]
    exact hat'

/-- The clusters of the induced partition come in the order of the clusters of `mp`. -/
theorem updatePart_at {og mp : Part} (hog : Consistent og) (hne : ∀ c ∈ og.clusters, c.Nonempty)
    (hmp : Consistent mp) (hmne : ∀ c ∈ mp.clusters, c.Nonempty)
    (hn : mp.numNodes = og.clusters.length) (hpos : 0 < og.numNodes) (p' : Part)
    (hp : updatePart og mp = .ok p') (i v : Nat) :
    At p'.clusters i v ↔ ∃ s, At og.clusters s v ∧ At mp.clusters i s := by
  have hog' := removeEmpty_of_nonempty hog hne
  have hmp' := removeEmpty_of_nonempty hmp hmne
  obtain ⟨items, h1, h2, h3⟩ := updateItems_spec mp.dict 0 og.clusters (by
    intro k hk
    obtain ⟨c, hc, _⟩ := hmp.dict_some (v := 0 + k) (by rw [hn]; omega)
    rw [hc]; rfl) hog.1.disj hne
  have hit : ∀ (i v : Nat), (v, (i : Int)) ∈ items ↔ ∃ s, At og.clusters s v ∧ At mp.clusters i s := by
    intro i v
    rw [h3]
    constructor
    · rintro ⟨k, hk, hd⟩
      rw [Nat.zero_add] at hd
      obtain ⟨j, hj, hat⟩ := (hmp.2 k _).1 hd
      have : i = j := by omega
      exact ⟨k, hk, this ▸ hat⟩
    · rintro ⟨s, hs, hm⟩
      exact ⟨s, hs, by rw [Nat.zero_add]; exact (hmp.2 s _).2 ⟨i, rfl, hm⟩⟩
  have hposi : ∀ a ∈ items, 0 ≤ a.2 := by
    rintro ⟨v, x⟩ ha
    obtain ⟨k, _, hx⟩ := (h3 v x).1 ha
    exact (hmp.dict_lt hx).1
  have hnei : items ≠ [] := by
    intro he
    obtain ⟨k, hk, _⟩ := (hog.1 0).1 hpos
    obtain ⟨c, hc, _⟩ := hmp.dict_some (v := k) (by rw [hn]; exact at_lt hk)
    have := (h3 0 c).2 ⟨k, hk, by rw [Nat.zero_add]; exact hc⟩
    rw [he] at this
    simp at this
  obtain ⟨q, hq, hat⟩ := mk'_dict_at og.numNodes items hposi hnei (by
    rintro ⟨v, x⟩ ha i hi
    obtain ⟨k, _, hx⟩ := (h3 v x).1 ha
    obtain ⟨j, rfl, hj⟩ := (hmp.2 _ x).1 hx
    have hjl := at_lt hj
    simp only at hi
    have hil : i < mp.clusters.length := by omega
    have hmem : mp.clusters[i] ∈ mp.clusters := List.getElem_mem hil
    obtain ⟨s, hs⟩ := hmne _ hmem
    have hats : At mp.clusters i s := ⟨_, List.getElem?_eq_getElem hil, hs⟩
    have hsl := at_lt_n hmp.1 hats
    rw [hn] at hsl
    obtain ⟨u, hu⟩ := hne _ (List.getElem_mem hsl)
    exact ⟨u, (hit i u).2 ⟨s, ⟨_, List.getElem?_eq_getElem hsl, hu⟩, hats⟩⟩)
  unfold updatePart at hp
  simp only [hog', hmp', h1] at hp
  rw [hq] at hp
  injection hp with hp
  rw [← hp, hat]
  exact hit i v

/-- Node 0 exchanges nothing with other nodes. -/
def Isolated (T : Nat → Nat → K) (n : Nat) : Prop :=
  ∀ v < n, v ≠ 0 → ¬ 0 < T 0 v ∧ ¬ 0 < T v 0

theorem visit_isolated (S T : Nat → Nat → K) {p : Part} (h : Consistent p)
    (hT : Isolated T p.numNodes) (h0 : p.clusters[0]? = some {0})
    (it : Finset Int → List Int) (hit : ∀ s x, x ∈ it s ↔ x ∈ s) {v : Nat} (hv : v < p.numNodes)
    (g : K) (p' : Part) (hres : visit S T p.numNodes it p v = .ok (g, p')) :
    p'.clusters[0]? = some {0} := by
  obtain ⟨g1, p1, h1, _, _, _, _, h6, _⟩ := visit_spec S T h it hit hv
  rw [h1] at hres
  injection hres with hres
  simp only [Prod.mk.injEq] at hres
  obtain ⟨_, rfl⟩ := hres
  rcases h6 with rfl | ⟨cf, hcf, rfl, u, hu, hat⟩
  · exact h0
  · have h00 : At p.clusters 0 0 := ⟨_, h0, by simp⟩
    have hul := Finset.mem_range.1 (Finset.mem_filter.1 hu).1
    have hnb := (Finset.mem_filter.1 hu).2
    obtain ⟨ci, hd, hatv⟩ := h.dict_some hv
    by_cases he : ci = cf
    · subst he
      have : (moveNode p v ci).2 = p := by unfold moveNode; rw [hd]; simp
      rw [this]
      exact h0
    · have hv0 : v ≠ 0 := by
        rintro rfl
        by_cases hu0 : u = 0
        · subst hu0
          have e1 := h.1.disj 0 cf 0 hat h00
          have e2 := h.1.disj 0 ci 0 hatv h00
          omega
        · exact hnb.elim (hT u hul hu0).1 (hT u hul hu0).2
      have hu0 : u ≠ 0 := by
        rintro rfl
        exact hnb.elim (hT v hv hv0).2 (hT v hv hv0).1
      have hz : ∀ k w, At p.clusters k w → w ≠ 0 → k ≠ 0 := by
        rintro k w ⟨c, hc, hw⟩ hw0 rfl
        rw [h0] at hc
        injection hc with hc
        subst hc
        exact hw0 (by simpa using hw)
      have hcf0 := hz cf u hat hu0
      have hci0 := hz ci v hatv hv0
      rw [moveNode_ok h hd hcf he]
      simp [hcf0, hci0, h0]

theorem sweep_isolated (S T : Nat → Nat → K) (it : Nat → Finset Int → List Int)
    (hit : ∀ v s x, x ∈ it v s ↔ x ∈ s) (l : List Nat) (d : K) {p : Part} (h : Consistent p)
    (hT : Isolated T p.numNodes) (h0 : p.clusters[0]? = some {0})
    (hl : ∀ v ∈ l, v < p.numNodes) (g : K) (p' : Part)
    (hres : sweep S T p.numNodes it l d p = .ok (g, p')) : p'.clusters[0]? = some {0} := by
  induction l generalizing d p with
  | nil =>
    simp only [sweep, Except.ok.injEq, Prod.mk.injEq] at hres
    rw [← hres.2]
    exact h0
  | cons v l ih =>
    obtain ⟨g1, p1, h1, h2, h3, _⟩ := visit_spec S T h (it v) (hit v) (hl v (by simp))
    have h01 := visit_isolated S T h hT h0 (it v) (hit v) (hl v (by simp)) g1 p1 h1
    simp only [sweep, h1] at hres
    rw [← h3] at hres
    exact ih _ h2 (by rw [h3]; exact hT) h01 (fun u hu => by rw [h3]; exact hl u (by simp [hu])) hres

theorem moveLoop_isolated (sc : Sched) (m : Nat) (thr : K) (nSub : Nat) (S T : Nat → Nat → K)
    (steps nLoop : Nat) (dLoop dTot : K) {p : Part} (h : Consistent p)
    (hT : Isolated T p.numNodes) (h0 : p.clusters[0]? = some {0}) (g : K) (k : Nat) (p' : Part)
    (hres : moveLoop sc m thr nSub S T p.numNodes steps nLoop dLoop dTot p = .ok (g, k, p')) :
    p'.clusters[0]? = some {0} := by
  induction steps generalizing nLoop dLoop dTot p with
  | zero => simp [moveLoop] at hres
  | succ steps ih =>
    unfold moveLoop at hres
    have hl : ∀ v ∈ sc.order m nLoop p.numNodes, v < p.numNodes := by
      intro v hv
      exact List.mem_range.1 ((sc.order_perm m nLoop _).mem_iff.1 hv)
    split at hres
    · obtain ⟨g1, p1, h1, h2, h3, _⟩ := sweep_spec S T (sc.listing m nLoop)
        (sc.mem_listing m nLoop) (sc.order m nLoop p.numNodes) 0 h hl
      have h01 := sweep_isolated S T (sc.listing m nLoop) (sc.mem_listing m nLoop) _ 0 h hT h0 hl
        _ _ h1
      rw [h1] at hres
      simp only at hres
      rw [← h3] at hres
      exact ih _ _ _ h2 (by rw [h3]; exact hT) h01 hres
    · simp only [Except.ok.injEq, Prod.mk.injEq] at hres
      rw [← hres.2.2]
      unfold removeEmpty
      dsimp only
      match hc : p.clusters with
      | [] => rw [hc] at h0; simp at h0
      | c :: cs =>
        rw [hc] at h0
        simp only [List.getElem?_cons_zero, Option.some.injEq] at h0
        subst h0
        rw [List.filter_cons_of_pos (by simp)]
        rfl

/-- The induced partition keeps node 0 alone in the first cluster. -/
theorem updatePart_isolated {og mp : Part} (hog : Consistent og)
    (hne : ∀ c ∈ og.clusters, c.Nonempty) (hmp : Consistent mp)
    (hmne : ∀ c ∈ mp.clusters, c.Nonempty) (hn : mp.numNodes = og.clusters.length)
    (hpos : 0 < og.numNodes) (h0 : og.clusters[0]? = some {0}) (h1 : mp.clusters[0]? = some {0})
    (p' : Part) (hp : updatePart og mp = .ok p') : p'.clusters[0]? = some {0} := by
  have hat := updatePart_at hog hne hmp hmne hn hpos p' hp
  have h00 : At p'.clusters 0 0 := (hat 0 0).2 ⟨0, ⟨_, h0, by simp⟩, ⟨_, h1, by simp⟩⟩
  obtain ⟨c, hc, _⟩ := h00
  rw [hc]
  congr 1
  ext v
  have hv : v ∈ c ↔ At p'.clusters 0 v :=
    ⟨fun h => ⟨c, hc, h⟩, fun ⟨c', hc', h⟩ => by rw [hc] at hc'; injection hc' with hc'; rwa [hc']⟩
  rw [hv, hat]
  constructor
  · rintro ⟨s, ⟨c1, hc1, hv1⟩, ⟨c2, hc2, hs2⟩⟩
    rw [h1] at hc2
    injection hc2 with hc2
    subst hc2
    have : s = 0 := by simpa using hs2
    subst this
    rw [h0] at hc1
    injection hc1 with hc1
    subst hc1
    exact hv1
  · intro h
    have : v = 0 := by simpa using h
    subst this
    exact ⟨0, ⟨_, h0, by simp⟩, ⟨_, h1, by simp⟩⟩

end Verif.Louvain
