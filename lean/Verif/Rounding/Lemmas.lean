import Verif.Rounding.Spec

/-!
# Runs in any arithmetic
-/

set_option linter.unusedSectionVars false

namespace Verif.Rounding

open Verif.Partition Verif.Louvain

variable {F : Type} (ar : Arith F) (cy : Bool)

theorem scan_any (S : Nat → Nat → F) (lst : Finset Nat → List Nat) {p : Part} {v : Nat} {ci : Int}
    {rOut : F} (l : List Int)
    (hl : ∀ x ∈ l, x ≠ ci → ∃ r, deltaTo ar cy S lst p v x = .ok r) (best : F) (c : Int)
    (hinv : c = ci ∨ ∃ r, deltaTo ar cy S lst p v c = .ok r ∧ best = ar.add rOut r) :
    ∃ best' c', scan ar cy S lst p v ci rOut l best c = .ok (best', c') ∧
      (c' = ci ∨ ((c' = c ∨ c' ∈ l) ∧ ∃ r, deltaTo ar cy S lst p v c' = .ok r ∧
        best' = ar.add rOut r)) := by
  induction l generalizing best c with
  | nil =>
    refine ⟨best, c, rfl, ?_⟩
    rcases hinv with h | h
    · exact Or.inl h
    · exact Or.inr ⟨Or.inl rfl, h⟩
  | cons x l ih =>
    have hl' : ∀ y ∈ l, y ≠ ci → ∃ r, deltaTo ar cy S lst p v y = .ok r :=
      fun y hy => hl y (List.mem_cons_of_mem _ hy)
    by_cases hx : x = ci
    · obtain ⟨b, c', h1, h2⟩ := ih hl' best c hinv
      refine ⟨b, c', ?_, ?_⟩
      · simp only [scan, hx, ne_eq, not_true_eq_false, if_false]
        exact h1
      · rcases h2 with h2 | ⟨h2 | h2, h3⟩
        · exact Or.inl h2
        · exact Or.inr ⟨Or.inl h2, h3⟩
        · exact Or.inr ⟨Or.inr (List.mem_cons_of_mem _ h2), h3⟩
    · obtain ⟨r, hr⟩ := hl x (by simp) hx
      by_cases hb : ar.le best (ar.add rOut r) = true
      · obtain ⟨b, c', h1, h2⟩ := ih hl' (ar.add rOut r) x (Or.inr ⟨r, hr, rfl⟩)
        refine ⟨b, c', ?_, ?_⟩
        · simp only [scan, ne_eq, hx, not_false_eq_true, if_true, hr, hb]
          exact h1
        · rcases h2 with h2 | ⟨h2 | h2, h3⟩
          · exact Or.inl h2
          · exact Or.inr ⟨Or.inr (by simp [h2]), h3⟩
          · exact Or.inr ⟨Or.inr (List.mem_cons_of_mem _ h2), h3⟩
      · obtain ⟨b, c', h1, h2⟩ := ih hl' best c hinv
        refine ⟨b, c', ?_, ?_⟩
        · simp only [scan, ne_eq, hx, not_false_eq_true, if_true, hr, hb]
          exact h1
        · rcases h2 with h2 | ⟨h2 | h2, h3⟩
          · exact Or.inl h2
          · exact Or.inr ⟨Or.inl h2, h3⟩
          · exact Or.inr ⟨Or.inr (List.mem_cons_of_mem _ h2), h3⟩

/-- What an executed move is, whatever the arithmetic: the node goes from its cluster to
another one that contains a neighbour, and the value added to `delta_r_loop` is the sum of
the two computed parts of the gain. -/
def Moved (S T : Nat → Nat → F) (n : Nat) (it : Finset Int → List Int) (lst : Finset Nat → List Nat)
    (p : Part) (v : Nat) (g : F) (p' : Part) : Prop :=
  ∃ (ci cf : Nat) (rOut rIn : F) (cs : Finset Int), p.dict v = some (ci : Int) ∧ ci ≠ cf ∧
    cf < p.clusters.length ∧ At p.clusters ci v ∧
    deltaOut ar cy S lst p v ci = .ok rOut ∧ deltaTo ar cy S lst p v cf = .ok rIn ∧
    g = ar.add rOut rIn ∧ p' = (moveNode p v cf).2 ∧
    scan ar cy S lst p v ci rOut (it cs) ar.zero ci = .ok (g, (cf : Int)) ∧
    ∃ w ∈ neighs ar T n v, At p.clusters cf w

theorem visit_any (S T : Nat → Nat → F) {p : Part} (h : Consistent p)
    (it : Finset Int → List Int) (hit : ∀ s x, x ∈ it s ↔ x ∈ s) (lst : Finset Nat → List Nat)
    {v : Nat} (hv : v < p.numNodes) :
    ∃ o p', visit ar cy S T p.numNodes it lst p v = .ok (o, p') ∧ Consistent p' ∧
      p'.numNodes = p.numNodes ∧
      ((o = none ∧ p' = p) ∨ ∃ g, o = some g ∧ Moved ar cy S T p.numNodes it lst p v g p') := by
  obtain ⟨ci, hd, hat⟩ := h.dict_some hv
  have hnb : ∀ u ∈ neighs ar T p.numNodes v, u < p.numNodes := by
    intro u hu
    exact Finset.mem_range.1 (Finset.mem_filter.1 hu).1
  obtain ⟨cs, hcs, hmem⟩ := potential_ok h hnb hd
  obtain ⟨rOut, hrOut⟩ : ∃ r, deltaOut ar cy S lst p v ci = .ok r := by
    unfold deltaOut
    rw [getCluster_nat (at_lt hat)]
    simp [at_getD.2 hat, -List.getD_eq_getElem?_getD]
  have hvalid : ∀ x, x ∈ cs → ∃ cf : Nat, x = cf ∧ cf < p.clusters.length ∧ ci ≠ cf ∧
      ∃ u ∈ neighs ar T p.numNodes v, At p.clusters cf u := by
    intro x hx
    obtain ⟨hne, u, hu, hdu⟩ := (hmem x).1 hx
    obtain ⟨k, rfl, hk⟩ := (h.2 u x).1 hdu
    exact ⟨k, rfl, at_lt hk, fun he => hne (by rw [he]), u, hu, hk⟩
  have hto : ∀ cf : Nat, cf < p.clusters.length → ci ≠ cf →
      ∃ r, deltaTo ar cy S lst p v cf = .ok r := by
    intro cf hcf hne
    have hnotin : v ∉ p.clusters.getD cf ∅ := fun hf => hne (h.1.disj v ci cf hat (at_getD.1 hf))
    unfold deltaTo
    rw [getCluster_nat hcf]
    simp only [hnotin, if_false]
    exact ⟨_, rfl⟩
  obtain ⟨best, c, hscan, hcase⟩ := scan_any ar cy S lst (p := p) (v := v) (ci := (ci : Int))
    (rOut := rOut) (it cs) (by
      intro x hx _
      obtain ⟨cf, rfl, hcf, hne, _⟩ := hvalid x ((hit cs x).1 hx)
      exact hto cf hcf hne) ar.zero ci (Or.inl rfl)
  by_cases hc : c = ci
  · refine ⟨none, p, ?_, h, rfl, Or.inl ⟨rfl, rfl⟩⟩
    unfold visit
    simp only [hd, hrOut, hcs, hscan, hc, ne_eq, not_true_eq_false, if_false]
  · obtain ⟨hcin, r, hr, hb⟩ := hcase.resolve_left hc
    have hcin' : c ∈ cs := (hit _ _).1 (hcin.resolve_left hc)
    obtain ⟨cf, rfl, hcf, hne, hnear⟩ := hvalid c hcin'
    have hmv := moveNode_ok h hd hcf hne
    have hcons := consistent_move (v := v) h (cf := (cf : Int)) (by omega) (by omega)
    refine ⟨some best, (moveNode p v cf).2, ?_, hcons, (moveNode_numNodes ..).1,
      Or.inr ⟨best, rfl, ci, cf, rOut, r, cs, hd, hne, hcf, hat, hrOut, hr, hb, rfl, hscan, hnear⟩⟩
    unfold visit
    simp only [hd, hrOut, hcs, hscan, ne_eq, hc, not_false_eq_true, if_true]
    rw [hmv]

variable {K : Type} [Field K] [LinearOrder K] [IsStrictOrderedRing K]

/-- A pass over the nodes, with a bound on what each move costs. -/
theorem sweep_any (S T : Nat → Nat → F) (n : Nat) (it : Nat → Finset Int → List Int)
    (hit : ∀ v s x, x ∈ it v s ↔ x ∈ s) (lst : Nat → Finset Nat → List Nat)
    (φ : Part → K) (ε : K) (h0 : 0 ≤ ε)
    (hφ : ∀ p, Consistent p → p.numNodes = n → ∀ v < n, ∀ g p',
      Moved ar cy S T n (it v) (lst v) p v g p' → φ p - ε ≤ φ p') (l : List Nat) (d : F) {p : Part}
    (h : Consistent p) (hn : p.numNodes = n) (hl : ∀ v ∈ l, v < n) :
    ∃ d' p', sweep ar cy S T n it lst l d p = .ok (d', p') ∧ Consistent p' ∧
      p'.numNodes = n ∧ φ p - l.length * ε ≤ φ p' := by
  induction l generalizing d p with
  | nil => exact ⟨d, p, rfl, h, hn, by simp⟩
  | cons v l ih =>
    subst hn
    obtain ⟨o, p1, h1, h2, h3, h4⟩ := visit_any ar cy S T h (it v) (hit v) (lst v) (hl v (by simp))
    have hl' : ∀ u ∈ l, u < p.numNodes := fun u hu => hl u (by simp [hu])
    rcases h4 with ⟨rfl, rfl⟩ | ⟨g, rfl, hm⟩
    · obtain ⟨d', p2, h6, h7, h8, h9⟩ := ih d h2 h3 hl'
      refine ⟨d', p2, ?_, h7, h8, ?_⟩
      · simp only [sweep, h1]
        exact h6
      · push_cast [List.length_cons]
        nlinarith
    · obtain ⟨d', p2, h6, h7, h8, h9⟩ := ih (ar.add d g) h2 h3 hl'
      refine ⟨d', p2, ?_, h7, h8, ?_⟩
      · simp only [sweep, h1]
        exact h6
      · have := hφ p h rfl v (hl v (by simp)) g p1 hm
        push_cast [List.length_cons]
        nlinarith

/-- A node-moving phase, with a bound on what each move costs. -/
theorem moveLoop_any (sc : FSched) (m : Nat) (thr : F) (nSub : Nat) (S T : Nat → Nat → F) (n : Nat)
    (φ : Part → K) (ε : K) (h0 : 0 ≤ ε)
    (hφ : ∀ p, Consistent p → p.numNodes = n → ∀ k, ∀ v < n, ∀ g p',
      Moved ar cy S T n (sc.listing m k v) (sc.nodes m k v) p v g p' → φ p - ε ≤ φ p')
    (hr : ∀ p, φ (removeEmpty p) = φ p)
    (steps nLoop : Nat) (dLoop dTot : F) {p : Part} (h : Consistent p) (hn : p.numNodes = n)
    (hs : nSub - nLoop < steps) :
    ∃ d k p', moveLoop ar cy sc m thr nSub S T n steps nLoop dLoop dTot p = .ok (d, k, p') ∧
      Consistent p' ∧ p'.numNodes = n ∧ (∀ c ∈ p'.clusters, c.Nonempty) ∧ k ≤ max nLoop nSub ∧
      φ p - ((nSub - nLoop : Nat) * n : K) * ε ≤ φ p' := by
  induction steps generalizing nLoop dLoop dTot p with
  | zero => omega
  | succ steps ih =>
    simp only [moveLoop]
    by_cases hc : ar.lt thr dLoop = true ∧ nLoop < nSub
    · rw [if_pos hc]
      obtain ⟨d, p1, h1, h2, h3, h4⟩ := sweep_any ar cy S T n (sc.listing m nLoop)
        (fun v s x => sc.mem_listing m nLoop v s x) (sc.nodes m nLoop) φ ε h0
        (fun p hp hpn v hv g p' hm => hφ p hp hpn nLoop v hv g p' hm)
        (sc.order m nLoop n) ar.zero h hn (by
          intro v hv
          exact List.mem_range.1 ((sc.order_perm m nLoop n).mem_iff.1 hv))
      rw [h1]
      simp only
      obtain ⟨d', k, p2, h6, h7, h8, h9, h10, h11⟩ := ih (nLoop + 1) d (ar.add dTot d) h2 h3 (by omega)
      refine ⟨d', k, p2, h6, h7, h8, h9, by omega, ?_⟩
      have hlen : (sc.order m nLoop n).length = n := by
        rw [(sc.order_perm m nLoop n).length_eq, List.length_range]
      rw [hlen] at h4
      have he : ((nSub - nLoop : Nat) : K) = ((nSub - (nLoop + 1) : Nat) : K) + 1 := by
        have : nSub - nLoop = (nSub - (nLoop + 1)) + 1 := by omega
        rw [this]
        push_cast
        ring
      rw [he]
      linarith
    · rw [if_neg hc]
      refine ⟨dTot, nLoop, removeEmpty p, rfl, consistent_removeEmpty h.1, hn,
        (removeEmpty_effect p).2, by omega, ?_⟩
      rw [hr]
      have : (0 : K) ≤ ((nSub - nLoop : Nat) * n : K) * ε := by positivity
      linarith

/-- The induced partition is valid even when the clustering of the phase has more nodes
than there are clusters. -/
theorem updatePart_any {og mp : Part} (hog : Consistent og) (hne : ∀ c ∈ og.clusters, c.Nonempty)
    (hmp : Consistent mp) (hn : og.clusters.length ≤ mp.numNodes) (hpos : 0 < og.numNodes) :
    ∃ p', updatePart og mp = .ok p' ∧ Consistent p' ∧ p'.numNodes = og.numNodes ∧
      (∀ c ∈ p'.clusters, c.Nonempty) := by
  have hmp' : Consistent (removeEmpty mp) := consistent_removeEmpty hmp.1
  have hn' : og.clusters.length ≤ (removeEmpty mp).numNodes := hn
  have hog' := removeEmpty_of_nonempty hog hne
  obtain ⟨items, h1, h2, h3⟩ := updateItems_spec (removeEmpty mp).dict 0 og.clusters (by
    intro k hk
    obtain ⟨c, hc, _⟩ := hmp'.dict_some (v := 0 + k) (by omega)
    rw [hc]; rfl) hog.1.disj hne
  have hkeys : ∀ v, v ∈ items.map (·.1) ↔ v < og.numNodes := by
    intro v
    rw [(isPartition_iff.1 hog.1).2 v, List.mem_map]
    constructor
    · rintro ⟨⟨u, x⟩, hux, rfl⟩
      obtain ⟨k, hk, _⟩ := (h3 u x).1 hux
      exact ⟨k, hk⟩
    · rintro ⟨k, hk⟩
      obtain ⟨x, hx, _⟩ := hmp'.dict_some (v := k) (by have := at_lt hk; omega)
      exact ⟨(v, (x : Int)), (h3 v x).2 ⟨k, hk, by rw [Nat.zero_add]; exact hx⟩, rfl⟩
  have hposi : ∀ a ∈ items, 0 ≤ a.2 := by
    rintro ⟨v, x⟩ ha
    obtain ⟨k, _, hx⟩ := (h3 v x).1 ha
    exact (hmp'.dict_lt hx).1
  have hnei : items ≠ [] := by
    intro he
    have := (hkeys 0).2 hpos
    rw [he] at this
    simp at this
  obtain ⟨p', hp', hcons, hnum, htog, hnemp⟩ := mk'_dict og.numNodes items h2 hkeys hposi hnei
  refine ⟨p', ?_, hcons, hnum, hnemp⟩
  unfold updatePart
  simp only [hog', h1]
  exact hp'

theorem aggregate_any (lst : Finset Nat → List Nat) (T S : Nat → Nat → F) {p : Part} :
    (aggregate ar lst T S p = .error .assertionError) ∨
    ∃ mc, aggregate ar lst T S p = .ok mc ∧ mc.S = agg ar lst S p.clusters ∧
      mc.n = p.clusters.length ∧ Consistent mc.part ∧ mc.part.numNodes = p.clusters.length ∧
      mc.part.clusters = singletons p.clusters.length := by
  unfold aggregate mkClu
  dsimp only
  obtain ⟨q, hq, h1, h2, h3⟩ := mk'_none p.clusters.length false
  rw [hq]
  split
  · exact Or.inr ⟨_, rfl, rfl, rfl, h1, h2, h3⟩
  · exact Or.inl rfl

/-- The meta loop in any arithmetic: a valid partition or the failed assertion. -/
theorem metaLoop_any (sc : FSched) (par : Params F) (T S : Nat → Nat → F) (steps k0 : Nat)
    (delta : F) (stop : Bool) (self : Part) (mc : Clu F) (hself : Consistent self)
    (hpos : 0 < self.numNodes) (hne : ∀ c ∈ self.clusters, c.Nonempty)
    (hinv : stop = true ∨ (Consistent mc.part ∧ mc.part.numNodes = mc.n ∧
      self.clusters.length ≤ mc.n)) (hk : k0 ≤ par.nMeta + 1) (hs : par.nMeta + 1 - k0 < steps) :
    metaLoop ar cy sc par T S steps k0 delta stop self mc = .error .assertionError ∨
    ∃ k p, metaLoop ar cy sc par T S steps k0 delta stop self mc = .ok (k, p) ∧
      Consistent p ∧ p.numNodes = self.numNodes ∧ (∀ c ∈ p.clusters, c.Nonempty) ∧
      k ≤ par.nMeta + 1 := by
  induction steps generalizing k0 delta stop self mc with
  | zero => omega
  | succ steps ih =>
    simp only [metaLoop]
    split
    · exact Or.inr ⟨k0, self, rfl, hself, rfl, hne, hk⟩
    · rename_i hcond
      have hstop : stop ≠ true := fun h => hcond (Or.inr (Or.inl h))
      have hk0 : ¬ par.nMeta < k0 := fun h => hcond (Or.inr (Or.inr h))
      obtain ⟨hmc, hmn, hlen⟩ := hinv.resolve_left hstop
      obtain ⟨d, kl, p1, h1, h2, h3, h4, _, _⟩ := moveLoop_any (K := ℚ) ar cy sc (k0 + 1) par.thr
        par.nSub mc.S mc.T mc.n (fun _ => 0) 0 le_rfl (fun _ _ _ _ _ _ _ _ _ => by simp)
        (fun _ => rfl) (par.nSub + 1) 1 ar.one ar.zero hmc hmn (by omega)
      have hmove : moveNodes ar cy sc (k0 + 1) par.thr par.nSub mc (par.nSub + 1)
          = .ok (d, kl, p1) := h1
      rw [hmove]
      simp only
      obtain ⟨self', h7, h8, h9, h10⟩ := updatePart_any hself hne h2 (by omega) hpos
      rw [h7]
      simp only
      split
      · rcases ih (k0 + 1) d true self' _ h8 (by omega) h10 (Or.inl rfl) (by omega) (by omega)
          with e | ⟨k, p, a, b, c, e, f⟩
        · exact Or.inl e
        · exact Or.inr ⟨k, p, a, b, c.trans h9, e, f⟩
      · rcases aggregate_any ar (sc.block (k0 + 1)) T S (p := self') with e | ⟨mc', e, _, e2, e3, e4, _⟩
        · rw [e]
          exact Or.inl rfl
        · rw [e]
          simp only
          rcases ih (k0 + 1) d false self' mc' h8 (by omega) h10
            (Or.inr ⟨e3, by rw [e4, e2], by rw [e2]⟩) (by omega) (by omega)
            with e | ⟨k, p, a, b, c, e, f⟩
          · exact Or.inl e
          · exact Or.inr ⟨k, p, a, b, c.trans h9, e, f⟩

end Verif.Rounding
