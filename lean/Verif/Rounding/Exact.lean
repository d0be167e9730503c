import Verif.Rounding.Lemmas

/-!
# Exact arithmetic gives the exact model back
-/

set_option linter.unusedSectionVars false

namespace Verif.Rounding

open Verif.Partition Verif.Louvain

variable {K : Type} [Field K] [LinearOrder K] [IsStrictOrderedRing K]

theorem osum_some {ι : Type} (l : List ι) (f : ι → K) :
    osum (l.map fun i => some (f i)) = some (l.map f).sum := by
  unfold osum
  induction l with
  | nil => rfl
  | cons a l ih => simp [ih]

theorem osum_none (l : List (Option K)) (h : none ∈ l) : osum l = none := by
  unfold osum
  induction l with
  | nil => simp at h
  | cons a l ih =>
    rw [List.foldr_cons]
    rcases List.mem_cons.1 h with h | h
    · rw [← h]; rfl
    · rw [ih h]
      cases a <;> rfl

theorem sumSto_list (S : Nat → Nat → K) (k : Nat) (ix : List Nat) :
    Louvain.sumSto S k ix = (ix.map fun j => S k j).sum + (ix.map fun i => S i k).sum + S k k := by
  have hf : ∀ (l : List Nat) (d : K),
      l.foldl (fun d i => d + S k i + S i k) d = d + ((l.map fun i => S k i).sum
        + (l.map fun i => S i k).sum) := by
    intro l
    induction l with
    | nil => simp
    | cons a l ih => intro d; simp [ih]; ring
  unfold sumSto
  rw [hf]
  ring

theorem sumSout_list (S : Nat → Nat → K) (k : Nat) (ix : List Nat) :
    Louvain.sumSout S k ix = -(ix.map fun j => S k j).sum - (ix.map fun i => S i k).sum + S k k := by
  have hf : ∀ (l : List Nat) (d : K),
      l.foldl (fun d i => d - S k i - S i k) d = d - ((l.map fun i => S k i).sum
        + (l.map fun i => S i k).sum) := by
    intro l
    induction l with
    | nil => simp
    | cons a l ih => intro d; simp [ih]; ring
  unfold sumSout
  rw [hf]
  ring

theorem sumTo_exact (cy : Bool) (S : Nat → Nat → K) (k : Nat) (ix : List Nat) :
    sumTo (exact K) cy (lift S) k ix = some (Louvain.sumSto S k ix) := by
  unfold sumTo
  cases cy with
  | true =>
    rw [if_pos rfl]
    have : ∀ d : K, ix.foldl (fun d i => (exact K).add ((exact K).add d (lift S k i)) (lift S i k))
        (some d) = some (ix.foldl (fun d i => d + S k i + S i k) d) := by
      induction ix with
      | nil => intro d; rfl
      | cons i l ih => intro d; exact ih _
    have h0 : (exact K).zero = some 0 := rfl
    rw [h0, this]
    rfl
  | false =>
    rw [if_neg (by simp), sumSto_list]
    have h1 : (exact K).sum (ix.map fun j => lift S k j) = some (ix.map fun j => S k j).sum :=
      osum_some ix fun j => S k j
    have h2 : (exact K).sum (ix.map fun i => lift S i k) = some (ix.map fun i => S i k).sum :=
      osum_some ix fun i => S i k
    rw [h1, h2]
    rfl

theorem sumOut_exact (cy : Bool) (S : Nat → Nat → K) (k : Nat) (ix : List Nat) :
    sumOut (exact K) cy (lift S) k ix = some (Louvain.sumSout S k ix) := by
  unfold sumOut
  cases cy with
  | true =>
    rw [if_pos rfl]
    have : ∀ d : K, ix.foldl (fun d i => (exact K).sub ((exact K).sub d (lift S k i)) (lift S i k))
        (some d) = some (ix.foldl (fun d i => d - S k i - S i k) d) := by
      induction ix with
      | nil => intro d; rfl
      | cons i l ih => intro d; exact ih _
    have h0 : (exact K).zero = some 0 := rfl
    rw [h0, this]
    rfl
  | false =>
    rw [if_neg (by simp), sumSout_list]
    have h1 : (exact K).sum (ix.map fun j => lift S k j) = some (ix.map fun j => S k j).sum :=
      osum_some ix fun j => S k j
    have h2 : (exact K).sum (ix.map fun i => lift S i k) = some (ix.map fun i => S i k).sum :=
      osum_some ix fun i => S i k
    rw [h1, h2]
    rfl

variable (lst : Finset Nat → List Nat) (hnd : ∀ c, (lst c).Nodup) (hmem : ∀ c v, v ∈ lst c ↔ v ∈ c)
  (cy : Bool)

include hnd hmem

theorem deltaTo_exact (S : Nat → Nat → K) (p : Part) (k : Nat) (cf : Int) :
    deltaTo (exact K) cy (lift S) lst p k cf = (Louvain.deltaTo S p k cf).map some := by
  unfold deltaTo Louvain.deltaTo
  cases getCluster p cf with
  | error e => rfl
  | ok c =>
    simp only
    split
    · rfl
    · rw [sumTo_exact, sumSto_eq S k c (lst c) (hnd c) (hmem c)]
      rfl

theorem deltaOut_exact (S : Nat → Nat → K) (p : Part) (k : Nat) (ci : Int) :
    deltaOut (exact K) cy (lift S) lst p k ci = (Louvain.deltaOut S p k ci).map some := by
  unfold deltaOut Louvain.deltaOut
  cases getCluster p ci with
  | error e => rfl
  | ok c =>
    simp only
    split
    · rfl
    · rw [sumOut_exact, sumSout_eq S k c (lst c) (hnd c) (hmem c)]
      rfl

omit hnd hmem in
theorem neighs_exact (T : Nat → Nat → K) (n v : Nat) :
    neighs (exact K) (lift T) n v = Louvain.neighs T n v := by
  unfold neighs Louvain.neighs
  apply Finset.filter_congr
  intro j _
  simp [exact, lift]

theorem scan_exact (S : Nat → Nat → K) (p : Part) (v : Nat) (ci : Int) (rOut : K) (l : List Int)
    (best : K) (c : Int) :
    scan (exact K) cy (lift S) lst p v ci (some rOut) l (some best) c
      = (Louvain.scan S p v ci rOut l best c).map fun r => (some r.1, r.2) := by
  induction l generalizing best c with
  | nil => rfl
  | cons x l ih =>
    simp only [scan, Louvain.scan]
    split
    · rw [deltaTo_exact lst hnd hmem]
      cases h : Louvain.deltaTo S p v x with
      | error e => rfl
      | ok r =>
        simp only [Except.map]
        have h1 : (exact K).add (some rOut) (some r) = some (rOut + r) := rfl
        have h2 : (exact K).le (some best) (some (rOut + r)) = decide (best ≤ rOut + r) := rfl
        rw [h1, h2]
        by_cases hb : best ≤ rOut + r
        · simp only [hb, decide_true, if_true]
          exact ih _ _
        · simp only [hb, decide_false, if_false, Bool.false_eq_true]
          exact ih _ _
    · exact ih _ _

theorem visit_exact (S T : Nat → Nat → K) (n : Nat) (it : Finset Int → List Int) (p : Part) (v : Nat) :
    (visit (exact K) cy (lift S) (lift T) n it lst p v).map
        (fun r => ((r.1.getD (some 0), r.2) : Option K × Part))
      = (Louvain.visit S T n it p v).map fun r => (some r.1, r.2) := by
  unfold visit Louvain.visit
  cases p.dict v with
  | none => rfl
  | some ci =>
    simp only
    rw [deltaOut_exact lst hnd hmem]
    cases Louvain.deltaOut S p v ci with
    | error e => rfl
    | ok rOut =>
      simp only [Except.map, neighs_exact]
      cases potentialNewClusters p (Louvain.neighs T n v) v with
      | error e => rfl
      | ok comms =>
        simp only
        have h0 : (exact K).zero = some 0 := rfl
        rw [h0, scan_exact lst hnd hmem]
        cases Louvain.scan S p v ci rOut (it comms) 0 ci with
        | error e => rfl
        | ok r =>
          obtain ⟨b, c⟩ := r
          simp only [Except.map]
          by_cases hc : c = ci
          · simp [hc]
          · simp only [ne_eq, hc, not_false_eq_true, if_true]
            cases hm : moveNode p v c with
            | mk e p' =>
              cases e <;> rfl

omit hnd hmem in
theorem sweep_exact (S T : Nat → Nat → K) (n : Nat) (it : Nat → Finset Int → List Int)
    (lst : Nat → Finset Nat → List Nat) (hnd : ∀ v c, (lst v c).Nodup)
    (hmem : ∀ v c w, w ∈ lst v c ↔ w ∈ c) (l : List Nat) (d : K) (p : Part) :
    sweep (exact K) cy (lift S) (lift T) n it lst l (some d) p
      = (Louvain.sweep S T n it l d p).map fun r => (some r.1, r.2) := by
  induction l generalizing d p with
  | nil => rfl
  | cons v l ih =>
    have hv := visit_exact (lst v) (hnd v) (hmem v) cy S T n (it v) p v
    simp only [sweep, Louvain.sweep]
    cases h1 : visit (exact K) cy (lift S) (lift T) n (it v) (lst v) p v with
    | error e =>
      rw [h1] at hv
      cases h2 : Louvain.visit S T n (it v) p v with
      | error e' =>
        rw [h2] at hv
        simp only [Except.map, Except.error.injEq] at hv
        subst hv
        rfl
      | ok r =>
        rw [h2] at hv
        simp [Except.map] at hv
    | ok r =>
      rw [h1] at hv
      obtain ⟨o, p'⟩ := r
      cases h2 : Louvain.visit S T n (it v) p v with
      | error e' =>
        rw [h2] at hv
        simp [Except.map] at hv
      | ok r =>
        rw [h2] at hv
        obtain ⟨g, p''⟩ := r
        simp only [Except.map, Except.ok.injEq, Prod.mk.injEq] at hv
        obtain ⟨hg, rfl⟩ := hv
        cases o with
        | none =>
          simp only [Option.getD_none, Option.some.injEq] at hg
          subst hg
          simp only [add_zero]
          exact ih d p'
        | some x =>
          simp only [Option.getD_some] at hg
          subst hg
          simp only
          exact ih (d + g) p'

omit hnd hmem in
theorem moveLoop_exact (sc : FSched) (m : Nat) (thr : K) (nSub : Nat) (S T : Nat → Nat → K) (n : Nat)
    (steps nLoop : Nat) (dLoop dTot : K) (p : Part) :
    moveLoop (exact K) cy sc m (some thr) nSub (lift S) (lift T) n steps nLoop (some dLoop)
        (some dTot) p
      = (Louvain.moveLoop sc.toSched m thr nSub S T n steps nLoop dLoop dTot p).map
          fun r => (some r.1, r.2) := by
  induction steps generalizing nLoop dLoop dTot p with
  | zero => rfl
  | succ steps ih =>
    simp only [moveLoop, Louvain.moveLoop]
    have h1 : ((exact K).lt (some thr) (some dLoop) = true ∧ nLoop < nSub)
        ↔ (thr < dLoop ∧ nLoop < nSub) := by simp [exact]
    have h0 : (exact K).zero = some 0 := rfl
    by_cases hc : thr < dLoop ∧ nLoop < nSub
    · rw [if_pos hc, if_pos (h1.2 hc), h0,
        sweep_exact cy S T n (sc.listing m nLoop) (sc.nodes m nLoop) (sc.nodes_nodup m nLoop)
          (sc.mem_nodes m nLoop)]
      cases Louvain.sweep S T n (sc.listing m nLoop) (sc.order m nLoop n) 0 p with
      | error e => rfl
      | ok r =>
        obtain ⟨d, p'⟩ := r
        exact ih (nLoop + 1) d (dTot + d) p'
    · rw [if_neg hc, if_neg (fun h => hc (h1.1 h))]
      rfl

omit hnd hmem in
theorem row_exact (n : Nat) (T : Nat → Nat → K) (i : Nat) :
    (exact K).sum ((List.range n).map (lift T i)) = some (rowSum n T i) := by
  have h : (exact K).sum ((List.range n).map (lift T i)) = some ((List.range n).map (T i)).sum :=
    osum_some (List.range n) (T i)
  rw [h]
  unfold rowSum
  rw [list_range_sum]
where
  list_range_sum {n : Nat} {f : Nat → K} : ((List.range n).map f).sum = ∑ j ∈ Finset.range n, f j := by
    have := List.sum_toFinset f (List.nodup_range (n := n))
    rw [← this]
    congr 1
    ext v
    simp

omit hnd hmem in
theorem rowsOk_exact (n : Nat) (T : Nat → Nat → K) :
    rowsOk (exact K) n (lift T) ↔ Louvain.rowsOk n T := by
  unfold rowsOk Louvain.rowsOk
  apply forall_congr'
  intro i
  apply forall_congr'
  intro _
  rw [row_exact]
  simp [exact]

omit hnd hmem in
theorem mkClu_exact (n : Nat) (T S : Nat → Nat → K) (arg : Arg) :
    mkClu (exact K) n (lift T) (lift S) arg = (Louvain.mkClu n T S arg).map liftClu := by
  unfold mkClu Louvain.mkClu
  by_cases h : Louvain.rowsOk n T
  · rw [if_pos h, if_pos ((rowsOk_exact n T).2 h)]
    cases mk' n arg false <;> rfl
  · rw [if_neg h, if_neg (fun h' => h ((rowsOk_exact n T).1 h'))]
    rfl

theorem agg_exact (S : Nat → Nat → K) (cl : List (Finset Nat)) :
    agg (exact K) lst (lift S) cl = lift (aggS S cl) := by
  funext s t
  unfold agg
  have h1 : ∀ i, osum ((lst (cl.getD t ∅)).map fun j => lift S i j)
      = some ((lst (cl.getD t ∅)).map fun j => S i j).sum := fun i => osum_some _ fun j => S i j
  have h2 : (exact K).sum2 ((lst (cl.getD s ∅)).map fun i => (lst (cl.getD t ∅)).map fun j => lift S i j)
      = osum ((lst (cl.getD s ∅)).map fun i => some ((lst (cl.getD t ∅)).map fun j => S i j).sum) := by
    show osum (List.map osum _) = _
    rw [List.map_map]
    congr 1
    apply List.map_congr_left
    intro i _
    exact h1 i
  rw [h2, osum_some]
  have hs : ∀ (c : Finset Nat) (f : Nat → K), ((lst c).map f).sum = ∑ i ∈ c, f i := by
    intro c f
    have hc : c = (lst c).toFinset := by ext v; simp [hmem]
    rw [← List.sum_toFinset f (hnd c), ← hc]
  rw [hs]
  unfold lift aggS blockSum
  congr 1
  exact Finset.sum_congr rfl fun i _ => hs _ _

/-- The same clustering object as far as its node-moving phase can tell. -/
def Agree (a : Clu (Option K)) (b : Clu K) : Prop :=
  a.n = b.n ∧ a.S = lift b.S ∧ a.part = b.part ∧ ∀ i < b.n, ∀ j < b.n, a.T i j = some (b.T i j)

theorem aggregate_exact (T S : Nat → Nat → K) (p : Part) :
    (∃ e, aggregate (exact K) lst (lift T) (lift S) p = .error e ∧ Louvain.aggregate T S p = .error e) ∨
    ∃ a b, aggregate (exact K) lst (lift T) (lift S) p = .ok a ∧ Louvain.aggregate T S p = .ok b ∧
      Agree a b := by
  unfold aggregate Louvain.aggregate
  dsimp only
  rw [agg_exact lst hnd hmem, agg_exact lst hnd hmem]
  have hrow : ∀ s, (exact K).sum ((List.range p.clusters.length).map (lift (aggS T p.clusters) s))
      = some (rowSum p.clusters.length (aggS T p.clusters) s) := fun s => row_exact _ _ s
  simp only [hrow]
  by_cases hz : ∃ s ∈ Finset.range p.clusters.length,
      rowSum p.clusters.length (aggS T p.clusters) s = 0
  · rw [if_pos hz]
    obtain ⟨s, hs, h0⟩ := hz
    have hs := Finset.mem_range.1 hs
    unfold mkClu
    rw [if_neg]
    · exact Or.inl ⟨_, rfl, rfl⟩
    · intro hrows
      have hnone : (exact K).sum ((List.range p.clusters.length).map fun t =>
          (exact K).div (lift (aggS T p.clusters) s t)
            (some (rowSum p.clusters.length (aggS T p.clusters) s))) = none := by
        apply osum_none
        rw [List.mem_map]
        refine ⟨s, List.mem_range.2 hs, ?_⟩
        simp [exact, lift, h0]
      rcases hrows s hs with h | h
      · rw [hnone] at h
        simp [exact] at h
      · rw [hnone] at h
        simp [exact] at h
  · rw [if_neg hz]
    have hT : ∀ s < p.clusters.length, ∀ t,
        (exact K).div (lift (aggS T p.clusters) s t)
          (some (rowSum p.clusters.length (aggS T p.clusters) s))
        = lift (fun s t => aggS T p.clusters s t / rowSum p.clusters.length (aggS T p.clusters) s) s t := by
      intro s hs t
      have : rowSum p.clusters.length (aggS T p.clusters) s ≠ 0 :=
        fun h0 => hz ⟨s, Finset.mem_range.2 hs, h0⟩
      simp [exact, lift, this]
    have hiff : rowsOk (exact K) p.clusters.length (fun s t =>
          (exact K).div (lift (aggS T p.clusters) s t)
            (some (rowSum p.clusters.length (aggS T p.clusters) s)))
        ↔ Louvain.rowsOk p.clusters.length
          (fun s t => aggS T p.clusters s t / rowSum p.clusters.length (aggS T p.clusters) s) := by
      rw [← rowsOk_exact]
      unfold rowsOk
      apply forall_congr'
      intro i
      apply forall_congr'
      intro hi
      have : ((List.range p.clusters.length).map fun t =>
          (exact K).div (lift (aggS T p.clusters) i t)
            (some (rowSum p.clusters.length (aggS T p.clusters) i)))
          = (List.range p.clusters.length).map (lift (fun s t => aggS T p.clusters s t
              / rowSum p.clusters.length (aggS T p.clusters) s) i) :=
        List.map_congr_left fun t _ => hT i hi t
      rw [this]
    unfold mkClu Louvain.mkClu
    by_cases h : Louvain.rowsOk p.clusters.length
          (fun s t => aggS T p.clusters s t / rowSum p.clusters.length (aggS T p.clusters) s)
    · rw [if_pos h, if_pos (hiff.2 h)]
      obtain ⟨q, hq, _⟩ := mk'_none p.clusters.length false
      rw [hq]
      refine Or.inr ⟨_, _, rfl, rfl, rfl, rfl, rfl, ?_⟩
      intro i hi j _
      exact hT i hi j
    · rw [if_neg h, if_neg (fun h' => h (hiff.1 h'))]
      exact Or.inl ⟨_, rfl, rfl⟩

omit hnd hmem

theorem visit_congr {F : Type} (ar : Arith F) (S T T' : Nat → Nat → F) (n : Nat)
    (it : Finset Int → List Int) (p : Part) (v : Nat) (hv : v < n)
    (hT : ∀ i < n, ∀ j < n, T i j = T' i j) :
    visit ar cy S T n it lst p v = visit ar cy S T' n it lst p v := by
  have : neighs ar T n v = neighs ar T' n v := by
    unfold neighs
    apply Finset.filter_congr
    intro j hj
    have hj := Finset.mem_range.1 hj
    rw [hT v hv j hj, hT j hj v hv]
  unfold visit
  rw [this]

theorem sweep_congr {F : Type} (ar : Arith F) (S T T' : Nat → Nat → F) (n : Nat)
    (it : Nat → Finset Int → List Int) (lst : Nat → Finset Nat → List Nat) (l : List Nat)
    (hl : ∀ v ∈ l, v < n) (hT : ∀ i < n, ∀ j < n, T i j = T' i j) (d : F) (p : Part) :
    sweep ar cy S T n it lst l d p = sweep ar cy S T' n it lst l d p := by
  induction l generalizing d p with
  | nil => rfl
  | cons v l ih =>
    simp only [sweep]
    rw [visit_congr (lst v) cy ar S T T' n (it v) p v (hl v (by simp)) hT]
    have hl' : ∀ u ∈ l, u < n := fun u hu => hl u (by simp [hu])
    cases visit ar cy S T' n (it v) (lst v) p v with
    | error e => rfl
    | ok r =>
      obtain ⟨o, p'⟩ := r
      cases o with
      | none => exact ih hl' d p'
      | some g => exact ih hl' (ar.add d g) p'

theorem moveLoop_congr {F : Type} (ar : Arith F) (sc : FSched) (m : Nat) (thr : F) (nSub : Nat)
    (S T T' : Nat → Nat → F) (n : Nat) (hT : ∀ i < n, ∀ j < n, T i j = T' i j)
    (steps nLoop : Nat) (dLoop dTot : F) (p : Part) :
    moveLoop ar cy sc m thr nSub S T n steps nLoop dLoop dTot p
      = moveLoop ar cy sc m thr nSub S T' n steps nLoop dLoop dTot p := by
  induction steps generalizing nLoop dLoop dTot p with
  | zero => rfl
  | succ steps ih =>
    simp only [moveLoop]
    split
    · rw [sweep_congr cy ar S T T' n _ _ _ (by
        intro v hv
        exact List.mem_range.1 ((sc.order_perm m nLoop n).mem_iff.1 hv)) hT]
      cases sweep ar cy S T' n (sc.listing m nLoop) (sc.nodes m nLoop) (sc.order m nLoop n) ar.zero p with
      | error e => rfl
      | ok r => exact ih _ _ _ _
    · rfl

theorem moveNodes_exact (sc : FSched) (m : Nat) (thr : K) (nSub : Nat) {a : Clu (Option K)} {b : Clu K}
    (h : Agree a b) (steps : Nat) :
    moveNodes (exact K) cy sc m (some thr) nSub a steps
      = (Louvain.moveNodes sc.toSched m thr nSub b steps).map fun r => (some r.1, r.2) := by
  obtain ⟨h1, h2, h3, h4⟩ := h
  unfold moveNodes Louvain.moveNodes
  rw [h1, h2, h3, moveLoop_congr cy (exact K) sc m (some thr) nSub (lift b.S) a.T (lift b.T) b.n h4]
  exact moveLoop_exact cy sc m thr nSub b.S b.T b.n steps 1 1 0 b.part

theorem metaLoop_exact (sc : FSched) (par : Params K) (T S : Nat → Nat → K) (steps k0 : Nat)
    (delta : K) (stop : Bool) (self : Part) (a : Clu (Option K)) (b : Clu K) (h : Agree a b) :
    metaLoop (exact K) cy sc (liftPar par) (lift T) (lift S) steps k0 (some delta) stop self a
      = Louvain.metaLoop sc.toSched par T S steps k0 delta stop self b := by
  induction steps generalizing k0 delta stop self a b with
  | zero => rfl
  | succ steps ih =>
    simp only [metaLoop, Louvain.metaLoop]
    have hle : ∀ d : K, ((exact K).le (some d) (liftPar par).thr = true) ↔ d ≤ par.thr := by
      intro d
      simp [exact, liftPar]
    have e1 : (liftPar par).nMeta = par.nMeta := rfl
    have e2 : (liftPar par).nSub = par.nSub := rfl
    have e3 : (liftPar par).thr = some par.thr := rfl
    simp only [hle, e1, e2]
    split
    · rfl
    · rw [e3, moveNodes_exact cy sc (k0 + 1) par.thr par.nSub h]
      cases Louvain.moveNodes sc.toSched (k0 + 1) par.thr par.nSub b (par.nSub + 1) with
      | error e => rfl
      | ok r =>
        obtain ⟨d, nl, mp⟩ := r
        simp only [Except.map]
        cases updatePart self mp with
        | error e => rfl
        | ok self' =>
          simp only
          have hle' : ((exact K).le (some d) (some par.thr) = true) ↔ d ≤ par.thr := hle d
          simp only [hle']
          split
          · exact ih _ _ _ _ _ _ ⟨h.1, h.2.1, rfl, h.2.2.2⟩
          · rcases aggregate_exact (sc.block (k0 + 1)) (sc.block_nodup (k0 + 1))
              (sc.mem_block (k0 + 1)) T S self' with ⟨e, he1, he2⟩ | ⟨a', b', he1, he2, hag⟩
            · rw [he1, he2]
            · rw [he1, he2]
              exact ih _ _ _ _ _ _ hag

end Verif.Rounding
