import Verif.Seeds.Model

/-!
# The search with a generator is the search with some schedule
-/

set_option linter.unusedSectionVars false

namespace Verif.Seeds

open Verif.Partition
open Verif.Louvain (Params updatePart Sched)

variable {K : Type} [Field K] [LinearOrder K] [IsStrictOrderedRing K] {C E G : Type}

/-- Shuffles of a node-moving phase. -/
theorem moveLoop_sched (rng : Rng G) (li : Listing) (m : Nat) (thr : K) (nSub : Nat)
    (c : Verif.Louvain.Clu K) (steps : Nat) : ∀ (nLoop : Nat) (dLoop dTot : K) (p : Part) (g : G),
    ∃ f : Nat → Nat → List Nat, (∀ k n, (f k n).Perm (List.range n)) ∧
      ∀ sc : Sched, (∀ k, nLoop ≤ k → ∀ n, sc.order m k n = f k n) → sc.listing = li.it →
        (moveLoop denseOps rng li m thr nSub c steps nLoop dLoop dTot p g).1
          = Verif.Louvain.moveLoop sc m thr nSub c.S c.T c.n steps nLoop dLoop dTot p := by
  induction steps with
  | zero =>
    intro nLoop dLoop dTot p g
    exact ⟨fun _ n => List.range n, fun _ _ => List.Perm.refl _, fun sc _ _ => by first | rfl | trivial⟩
  | succ steps ih =>
    intro nLoop dLoop dTot p g
    simp only [moveLoop, Verif.Louvain.moveLoop]
    by_cases hc : thr < dLoop ∧ nLoop < nSub
    · simp only [if_pos hc]
      cases hs : (denseOps (K := K)).sweep c (li.it m nLoop) (rng.shuffle g ((denseOps (K := K)).size c)).1 p with
      | error e =>
        refine ⟨fun _ n => if n = c.n then (rng.shuffle g c.n).1 else List.range n, ?_, ?_⟩
        · intro k n
          by_cases hn : n = c.n
          · simp only [if_pos hn]; rw [hn]; exact rng.perm _ _
          · simp only [if_neg hn]; exact List.Perm.refl _
        · intro sc ho hl
          rw [ho nLoop le_rfl, hl]
          simp only [if_true]
          simp only [denseOps] at hs
          rw [hs]
      | ok r =>
        obtain ⟨d, p'⟩ := r
        obtain ⟨f, hf, hsc⟩ := ih (nLoop + 1) d (dTot + d) p' (rng.shuffle g c.n).2
        refine ⟨fun k n => if k = nLoop ∧ n = c.n then (rng.shuffle g c.n).1 else f k n, ?_, ?_⟩
        · intro k n
          by_cases hn : k = nLoop ∧ n = c.n
          · simp only [if_pos hn]; rw [hn.2]; exact rng.perm _ _
          · simp only [if_neg hn]; exact hf _ _
        · intro sc ho hl
          have h1 := ho nLoop le_rfl c.n
          simp only [and_self, if_true] at h1
          rw [h1, hl]
          simp only [denseOps] at hs
          rw [hs]
          apply hsc sc _ hl
          intro k hk n
          rw [ho k (by omega) n]; beta_reduce; rw [if_neg (by omega)]
    · simp only [if_neg hc]
      exact ⟨fun _ n => List.range n, fun _ _ => List.Perm.refl _, fun sc _ _ => by first | rfl | trivial⟩

/-- Shuffles of the whole search. -/
theorem metaLoop_sched (rng : Rng G) (li : Listing) (par : Params K) (c : Verif.Louvain.Clu K)
    (steps : Nat) : ∀ (nMeta : Nat) (delta : K) (stop : Bool) (self : Part)
      (mc : Verif.Louvain.Clu K) (g : G),
    ∃ f : Nat → Nat → Nat → List Nat, (∀ m k n, (f m k n).Perm (List.range n)) ∧
      ∀ sc : Sched, (∀ m, nMeta < m → ∀ k n, sc.order m k n = f m k n) → sc.listing = li.it →
        (metaLoop denseOps rng li par c steps nMeta delta stop self mc g).1
          = Verif.Louvain.metaLoop sc par c.T c.S steps nMeta delta stop self mc := by
  induction steps with
  | zero =>
    intro nMeta delta stop self mc g
    exact ⟨fun _ _ n => List.range n, fun _ _ _ => List.Perm.refl _, fun sc _ _ => by first | rfl | trivial⟩
  | succ steps ih =>
    intro nMeta delta stop self mc g
    simp only [metaLoop, Verif.Louvain.metaLoop]
    by_cases hc : delta ≤ par.thr ∨ stop = true ∨ par.nMeta < nMeta
    · simp only [if_pos hc]
      exact ⟨fun _ _ n => List.range n, fun _ _ _ => List.Perm.refl _, fun sc _ _ => by first | rfl | trivial⟩
    · simp only [if_neg hc]
      obtain ⟨f1, hf1, h1⟩ := moveLoop_sched rng li (nMeta + 1) par.thr par.nSub mc (par.nSub + 1)
        1 1 0 mc.part g
      -- whatever happens later
      have key : ∀ f : Nat → Nat → Nat → List Nat, (∀ m k n, (f m k n).Perm (List.range n)) →
          ∃ f' : Nat → Nat → Nat → List Nat, (∀ m k n, (f' m k n).Perm (List.range n)) ∧
            (∀ k n, f' (nMeta + 1) k n = f1 k n) ∧
            (∀ m, nMeta + 1 < m → ∀ k n, f' m k n = f m k n) := by
        intro f hf
        refine ⟨fun m k n => if m = nMeta + 1 then f1 k n else f m k n, ?_, ?_, ?_⟩
        · intro m k n
          by_cases hm : m = nMeta + 1
          · simp only [if_pos hm]; exact hf1 _ _
          · simp only [if_neg hm]; exact hf _ _ _
        · intro k n; simp
        · intro m hm k n
          beta_reduce; rw [if_neg (by omega)]
      have h1' : ∀ sc : Sched, (∀ k n, sc.order (nMeta + 1) k n = f1 k n) → sc.listing = li.it →
          Verif.Louvain.moveNodes sc (nMeta + 1) par.thr par.nSub mc (par.nSub + 1)
            = (moveLoop denseOps rng li (nMeta + 1) par.thr par.nSub mc (par.nSub + 1) 1 1 0
                ((denseOps (K := K)).part mc) g).1 := fun sc ho hl =>
        (h1 sc (fun k _ n => ho k n) hl).symm
      generalize moveLoop denseOps rng li (nMeta + 1) par.thr par.nSub mc (par.nSub + 1) 1 1 0
        ((denseOps (K := K)).part mc) g = r at h1'
      obtain ⟨r, g'⟩ := r
      cases r with
      | error e =>
        obtain ⟨f', hf', ha, _⟩ := key (fun _ _ n => List.range n) (fun _ _ _ => List.Perm.refl _)
        refine ⟨f', hf', fun sc ho hl => ?_⟩
        rw [h1' sc (fun k n => by rw [ho _ (by omega), ha]) hl]
      | ok r =>
        obtain ⟨d, q, mp⟩ := r
        cases hu : updatePart self mp with
        | error e =>
          obtain ⟨f', hf', ha, _⟩ := key (fun _ _ n => List.range n) (fun _ _ _ => List.Perm.refl _)
          refine ⟨f', hf', fun sc ho hl => ?_⟩
          rw [h1' sc (fun k n => by rw [ho _ (by omega), ha]) hl]
          simp only [hu]
          rfl
        | ok self' =>
          by_cases hd : (∀ c ∈ self'.clusters, c.card = 1) ∨ par.nMeta < nMeta + 1 ∨ d ≤ par.thr
          · obtain ⟨f, hf, h2⟩ := ih (nMeta + 1) d true self' { mc with part := removeEmpty mp } g'
            obtain ⟨f', hf', ha, hb⟩ := key f hf
            refine ⟨f', hf', fun sc ho hl => ?_⟩
            rw [h1' sc (fun k n => by rw [ho _ (by omega), ha]) hl]
            simp only [hu, if_pos hd]
            exact h2 sc (fun m hm k n => by rw [ho m (by omega), hb m hm]) hl
          · cases hg : Verif.Louvain.aggregate c.T c.S self' with
            | error e =>
              obtain ⟨f', hf', ha, _⟩ := key (fun _ _ n => List.range n)
                (fun _ _ _ => List.Perm.refl _)
              refine ⟨f', hf', fun sc ho hl => ?_⟩
              rw [h1' sc (fun k n => by rw [ho _ (by omega), ha]) hl]
              have hg' : (denseOps (K := K)).aggregate c self' = .error e := hg
              simp only [hu, if_neg hd, hg, hg']
            | ok mc' =>
              obtain ⟨f, hf, h2⟩ := ih (nMeta + 1) d false self' mc' g'
              obtain ⟨f', hf', ha, hb⟩ := key f hf
              refine ⟨f', hf', fun sc ho hl => ?_⟩
              rw [h1' sc (fun k n => by rw [ho _ (by omega), ha]) hl]
              have hg' : (denseOps (K := K)).aggregate c self' = .ok mc' := hg
              simp only [hu, if_neg hd, hg, hg']
              exact h2 sc (fun m hm k n => by rw [ho m (by omega), hb m hm]) hl

/-- The dense search with a generator is the search with some schedule. -/
theorem search_dense (rng : Rng G) (li : Listing) (par : Params K) (c : Verif.Louvain.Clu K)
    (g : G) : ∃ sc : Sched, (search denseOps rng li par c g).1 = Verif.Louvain.findLouvain sc par c := by
  unfold search Verif.Louvain.findLouvain
  by_cases h0 : c.n = 0
  · refine ⟨⟨fun _ _ n => List.range n, li.it, fun _ _ _ => List.Perm.refl _, li.mem⟩, ?_⟩
    have : (denseOps (K := K)).isZero c = .error .valueError := by simp [denseOps, h0]
    rw [this, if_pos h0]
  · by_cases hz : Verif.Louvain.sIsZero c.n c.S
    · refine ⟨⟨fun _ _ n => List.range n, li.it, fun _ _ _ => List.Perm.refl _, li.mem⟩, ?_⟩
      have : (denseOps (K := K)).isZero c = .ok true := by simp [denseOps, h0, hz]
      rw [this, if_neg h0, if_pos hz]
      simp only [denseOps]
      cases mk' c.n (.clusterList [Finset.range c.n]) false <;> rfl
    · have : (denseOps (K := K)).isZero c = .ok false := by simp [denseOps, h0, hz]
      rw [this]
      cases hm : Verif.Louvain.mkClu c.n c.T c.S (.clusterList c.part.clusters) with
      | error e =>
        refine ⟨⟨fun _ _ n => List.range n, li.it, fun _ _ _ => List.Perm.refl _, li.mem⟩, ?_⟩
        rw [if_neg h0, if_neg hz]
        simp only [denseOps, hm]
      | ok mc =>
        obtain ⟨f, hf, h⟩ := metaLoop_sched rng li par c (par.nMeta + 3) 0 1 false c.part mc g
        refine ⟨⟨f, li.it, hf, li.mem⟩, ?_⟩
        rw [if_neg h0, if_neg hz]
        have hm' : (denseOps (K := K)).remake c ((denseOps (K := K)).part c).clusters = .ok mc := hm
        simp only [hm']
        exact h _ (fun _ _ _ _ => rfl) rfl

/-- The same for the sparse class. -/
theorem sMoveLoop_sched (rng : Rng G) (li : Listing) (m : Nat) (thr : K) (nSub : Nat)
    (c : Verif.SparseLouvain.SClu K) (steps : Nat) :
    ∀ (nLoop : Nat) (dLoop dTot : K) (p : Part) (g : G),
    ∃ f : Nat → Nat → List Nat, (∀ k n, (f k n).Perm (List.range n)) ∧
      ∀ sc : Sched, (∀ k, nLoop ≤ k → ∀ n, sc.order m k n = f k n) → sc.listing = li.it →
        (moveLoop sparseOps rng li m thr nSub c steps nLoop dLoop dTot p g).1
          = Verif.SparseLouvain.sMoveLoop sc m thr nSub c.A steps nLoop dLoop dTot p := by
  induction steps with
  | zero =>
    intro nLoop dLoop dTot p g
    exact ⟨fun _ n => List.range n, fun _ _ => List.Perm.refl _, fun sc _ _ => by first | rfl | trivial⟩
  | succ steps ih =>
    intro nLoop dLoop dTot p g
    simp only [moveLoop, Verif.SparseLouvain.sMoveLoop]
    by_cases hc : thr < dLoop ∧ nLoop < nSub
    · simp only [if_pos hc]
      cases hs : (sparseOps (K := K)).sweep c (li.it m nLoop)
          (rng.shuffle g ((sparseOps (K := K)).size c)).1 p with
      | error e =>
        refine ⟨fun _ n => if n = c.A.PT.nrows then (rng.shuffle g c.A.PT.nrows).1
          else List.range n, ?_, ?_⟩
        · intro k n
          by_cases hn : n = c.A.PT.nrows
          · simp only [if_pos hn]; rw [hn]; exact rng.perm _ _
          · simp only [if_neg hn]; exact List.Perm.refl _
        · intro sc ho hl
          rw [ho nLoop le_rfl, hl]
          simp only [if_true]
          simp only [sparseOps] at hs
          rw [hs]
      | ok r =>
        obtain ⟨d, p'⟩ := r
        obtain ⟨f, hf, hsc⟩ := ih (nLoop + 1) d (dTot + d) p' (rng.shuffle g c.A.PT.nrows).2
        refine ⟨fun k n => if k = nLoop ∧ n = c.A.PT.nrows then (rng.shuffle g c.A.PT.nrows).1
          else f k n, ?_, ?_⟩
        · intro k n
          by_cases hn : k = nLoop ∧ n = c.A.PT.nrows
          · simp only [if_pos hn]; rw [hn.2]; exact rng.perm _ _
          · simp only [if_neg hn]; exact hf _ _
        · intro sc ho hl
          have h1 := ho nLoop le_rfl c.A.PT.nrows
          simp only [and_self, if_true] at h1
          rw [h1, hl]
          simp only [sparseOps] at hs
          rw [hs]
          apply hsc sc _ hl
          intro k hk n
          rw [ho k (by omega) n]; beta_reduce; rw [if_neg (by omega)]
    · simp only [if_neg hc]
      exact ⟨fun _ n => List.range n, fun _ _ => List.Perm.refl _, fun sc _ _ => by first | rfl | trivial⟩

theorem sMetaLoop_sched (rng : Rng G) (li : Listing) (par : Params K)
    (c : Verif.SparseLouvain.SClu K) (steps : Nat) :
    ∀ (nMeta : Nat) (delta : K) (stop : Bool) (self : Part)
      (mc : Verif.SparseLouvain.SClu K) (g : G),
    ∃ f : Nat → Nat → Nat → List Nat, (∀ m k n, (f m k n).Perm (List.range n)) ∧
      ∀ sc : Sched, (∀ m, nMeta < m → ∀ k n, sc.order m k n = f m k n) → sc.listing = li.it →
        (metaLoop sparseOps rng li par c steps nMeta delta stop self mc g).1
          = Verif.SparseLouvain.sMetaLoop sc par c.A steps nMeta delta stop self mc := by
  induction steps with
  | zero =>
    intro nMeta delta stop self mc g
    exact ⟨fun _ _ n => List.range n, fun _ _ _ => List.Perm.refl _, fun sc _ _ => by first | rfl | trivial⟩
  | succ steps ih =>
    intro nMeta delta stop self mc g
    simp only [metaLoop, Verif.SparseLouvain.sMetaLoop]
    by_cases hc : delta ≤ par.thr ∨ stop = true ∨ par.nMeta < nMeta
    · simp only [if_pos hc]
      exact ⟨fun _ _ n => List.range n, fun _ _ _ => List.Perm.refl _, fun sc _ _ => by first | rfl | trivial⟩
    · simp only [if_neg hc]
      obtain ⟨f1, hf1, h1⟩ := sMoveLoop_sched rng li (nMeta + 1) par.thr par.nSub mc (par.nSub + 1)
        1 1 0 mc.part g
      have key : ∀ f : Nat → Nat → Nat → List Nat, (∀ m k n, (f m k n).Perm (List.range n)) →
          ∃ f' : Nat → Nat → Nat → List Nat, (∀ m k n, (f' m k n).Perm (List.range n)) ∧
            (∀ k n, f' (nMeta + 1) k n = f1 k n) ∧
            (∀ m, nMeta + 1 < m → ∀ k n, f' m k n = f m k n) := by
        intro f hf
        refine ⟨fun m k n => if m = nMeta + 1 then f1 k n else f m k n, ?_, ?_, ?_⟩
        · intro m k n
          by_cases hm : m = nMeta + 1
          · simp only [if_pos hm]; exact hf1 _ _
          · simp only [if_neg hm]; exact hf _ _ _
        · intro k n; simp
        · intro m hm k n
          beta_reduce; rw [if_neg (by omega)]
      have h1' : ∀ sc : Sched, (∀ k n, sc.order (nMeta + 1) k n = f1 k n) → sc.listing = li.it →
          Verif.SparseLouvain.sMoveNodes sc (nMeta + 1) par.thr par.nSub mc (par.nSub + 1)
            = (moveLoop sparseOps rng li (nMeta + 1) par.thr par.nSub mc (par.nSub + 1) 1 1 0
                ((sparseOps (K := K)).part mc) g).1 := fun sc ho hl =>
        (h1 sc (fun k _ n => ho k n) hl).symm
      generalize moveLoop sparseOps rng li (nMeta + 1) par.thr par.nSub mc (par.nSub + 1) 1 1 0
        ((sparseOps (K := K)).part mc) g = r at h1'
      obtain ⟨r, g'⟩ := r
      cases r with
      | error e =>
        obtain ⟨f', hf', ha, _⟩ := key (fun _ _ n => List.range n) (fun _ _ _ => List.Perm.refl _)
        refine ⟨f', hf', fun sc ho hl => ?_⟩
        rw [h1' sc (fun k n => by rw [ho _ (by omega), ha]) hl]
      | ok r =>
        obtain ⟨d, q, mp⟩ := r
        cases hu : updatePart self mp with
        | error e =>
          obtain ⟨f', hf', ha, _⟩ := key (fun _ _ n => List.range n) (fun _ _ _ => List.Perm.refl _)
          refine ⟨f', hf', fun sc ho hl => ?_⟩
          rw [h1' sc (fun k n => by rw [ho _ (by omega), ha]) hl]
          simp only [hu]
          rfl
        | ok self' =>
          by_cases hd : (∀ c ∈ self'.clusters, c.card = 1) ∨ par.nMeta < nMeta + 1 ∨ d ≤ par.thr
          · obtain ⟨f, hf, h2⟩ := ih (nMeta + 1) d true self' { mc with part := removeEmpty mp } g'
            obtain ⟨f', hf', ha, hb⟩ := key f hf
            refine ⟨f', hf', fun sc ho hl => ?_⟩
            rw [h1' sc (fun k n => by rw [ho _ (by omega), ha]) hl]
            simp only [hu, if_pos hd]
            exact h2 sc (fun m hm k n => by rw [ho m (by omega), hb m hm]) hl
          · cases hg : Verif.SparseLouvain.sAggregate c.A self' with
            | error e =>
              obtain ⟨f', hf', ha, _⟩ := key (fun _ _ n => List.range n)
                (fun _ _ _ => List.Perm.refl _)
              refine ⟨f', hf', fun sc ho hl => ?_⟩
              rw [h1' sc (fun k n => by rw [ho _ (by omega), ha]) hl]
              have hg' : (sparseOps (K := K)).aggregate c self' = .error e := hg
              simp only [hu, if_neg hd, hg, hg']
            | ok mc' =>
              obtain ⟨f, hf, h2⟩ := ih (nMeta + 1) d false self' mc' g'
              obtain ⟨f', hf', ha, hb⟩ := key f hf
              refine ⟨f', hf', fun sc ho hl => ?_⟩
              rw [h1' sc (fun k n => by rw [ho _ (by omega), ha]) hl]
              have hg' : (sparseOps (K := K)).aggregate c self' = .ok mc' := hg
              simp only [hu, if_neg hd, hg, hg']
              exact h2 sc (fun m hm k n => by rw [ho m (by omega), hb m hm]) hl

theorem search_sparse (rng : Rng G) (li : Listing) (par : Params K)
    (c : Verif.SparseLouvain.SClu K) (g : G) :
    ∃ sc : Sched, (search sparseOps rng li par c g).1 = Verif.SparseLouvain.sFindLouvain sc par c := by
  unfold search Verif.SparseLouvain.sFindLouvain
  by_cases hz : c.A.isAllZeros = true
  · refine ⟨⟨fun _ _ n => List.range n, li.it, fun _ _ _ => List.Perm.refl _, li.mem⟩, ?_⟩
    have : (sparseOps (K := K)).isZero c = .ok true := by simp [sparseOps, hz]
    rw [this, if_pos hz]
    simp only [sparseOps]
    cases mk' c.A.PT.nrows (.clusterList [Finset.range c.A.PT.nrows]) false <;> rfl
  · have : (sparseOps (K := K)).isZero c = .ok false := by simp [sparseOps, hz]
    rw [this]
    cases hm : Verif.SparseLouvain.mkS c.A (.clusterList c.part.clusters) with
    | error e =>
      refine ⟨⟨fun _ _ n => List.range n, li.it, fun _ _ _ => List.Perm.refl _, li.mem⟩, ?_⟩
      rw [if_neg hz]
      simp only [sparseOps, hm]
    | ok mc =>
      obtain ⟨f, hf, h⟩ := sMetaLoop_sched rng li par c (par.nMeta + 3) 0 1 false c.part mc g
      refine ⟨⟨f, li.it, hf, li.mem⟩, ?_⟩
      rw [if_neg hz]
      have hm' : (sparseOps (K := K)).remake c ((sparseOps (K := K)).part c).clusters = .ok mc := hm
      simp only [hm']
      exact h _ (fun _ _ _ _ => rfl) rfl

end Verif.Seeds
