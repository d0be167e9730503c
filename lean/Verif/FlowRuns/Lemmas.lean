import Verif.FlowRuns.Spec
import Verif.Louvain.Props

/-!
# Stopped runs: lemmas
-/

namespace Verif.FlowRuns

open Verif.Partition Verif.Louvain

variable {K : Type} [Field K] [LinearOrder K] [IsStrictOrderedRing K]

/-- Partition after the writes. -/
def lastPart (p : Part) : List Write → Part
  | [] => p
  | .setPart q :: ws => lastPart q ws
  | .save :: ws => lastPart p ws
  | .finish :: ws => lastPart p ws

theorem lastPart_append (p : Part) (a b : List Write) : lastPart p (a ++ b) = lastPart (lastPart p a) b := by
  induction a generalizing p with
  | nil => rfl
  | cons w a ih => cases w <;> exact ih _

theorem lastPart_saveIf (p : Part) (s : Bool) : lastPart p (saveIf s) = p := by cases s <;> rfl

theorem writes_cons (o : CluObj K) (w : Write) (ws : List Write) : o.writes (w :: ws) = (o.write w).writes ws := rfl

theorem writes_append (o : CluObj K) (a b : List Write) : o.writes (a ++ b) = (o.writes a).writes b :=
  List.foldl_append

theorem write_fields (o : CluObj K) (w : Write) : (o.write w).n = o.n ∧ (o.write w).T = o.T ∧ (o.write w).S = o.S := by
  cases w <;> exact ⟨rfl, rfl, rfl⟩

theorem writes_fields (o : CluObj K) (ws : List Write) :
    (o.writes ws).n = o.n ∧ (o.writes ws).T = o.T ∧ (o.writes ws).S = o.S ∧ (o.writes ws).part = lastPart o.part ws := by
  induction ws generalizing o with
  | nil => exact ⟨rfl, rfl, rfl, rfl⟩
  | cons w ws ih =>
    obtain ⟨a, b, c, d⟩ := ih (o.write w)
    obtain ⟨a', b', c'⟩ := write_fields o w
    rw [writes_cons]
    refine ⟨a.trans a', b.trans b', c.trans c', d.trans ?_⟩
    cases w <;> rfl

/-- Without `finish`, the attribute `partition` is not touched. -/
theorem writes_shown (o : CluObj K) (ws : List Write) (h : Write.finish ∉ ws) : (o.writes ws).shown = o.shown := by
  induction ws generalizing o with
  | nil => rfl
  | cons w ws ih =>
    rw [writes_cons, ih _ fun hm => h (List.mem_cons_of_mem _ hm)]
    cases w with
    | finish => exact absurd (List.mem_cons_self ..) h
    | setPart p => rfl
    | save => rfl

/-- The writes of the loop: one new partition per loop, saved on request, the last one possibly not
saved after an exception. -/
theorem metaWrites_shape (sc : Sched) (par : Params K) (save : Bool) (T S : Nat → Nat → K) (steps k0 : Nat)
    (delta : K) (stop : Bool) (self : Part) (mc : Clu K) :
    ∃ (ps : List Part) (ex : List Part), ex.length ≤ 1 ∧
      (metaWrites sc par save T S steps k0 delta stop self mc).1 =
        ps.flatMap (fun p => .setPart p :: saveIf save) ++ ex.map .setPart ∧
      ∀ k, (metaWrites sc par save T S steps k0 delta stop self mc).2 = .ok k → ex = [] ∧ ps.length + k0 = k := by
  induction steps generalizing k0 delta stop self mc with
  | zero => exact ⟨[], [], by simp, rfl, fun k h => by simp [metaWrites] at h⟩
  | succ steps ih =>
    simp only [metaWrites]
    split
    · refine ⟨[], [], by simp, rfl, fun k h => ?_⟩
      injection h with h
      exact ⟨rfl, by simp [h]⟩
    · split
      · exact ⟨[], [], by simp, rfl, fun k h => by simp at h⟩
      · rename_i d nl mp _
        split
        · exact ⟨[], [], by simp, rfl, fun k h => by simp at h⟩
        · rename_i self' _
          split
          · obtain ⟨ps, ex, h1, h2, h3⟩ := ih (k0 + 1) d true self' { mc with part := removeEmpty mp }
            refine ⟨self' :: ps, ex, h1, ?_, fun k h => ?_⟩
            · simp only
              rw [h2]
              simp
            · obtain ⟨a, b⟩ := h3 k h
              exact ⟨a, by simp; omega⟩
          · split
            · exact ⟨[], [self'], by simp, rfl, fun k h => by simp at h⟩
            · rename_i mc' _
              obtain ⟨ps, ex, h1, h2, h3⟩ := ih (k0 + 1) d false self' mc'
              refine ⟨self' :: ps, ex, h1, ?_, fun k h => ?_⟩
              · simp only
                rw [h2]
                simp
              · obtain ⟨a, b⟩ := h3 k h
                exact ⟨a, by simp; omega⟩

/-- The writes and the result of `metaLoop`. -/
theorem metaWrites_eq (sc : Sched) (par : Params K) (save : Bool) (T S : Nat → Nat → K) (steps k0 : Nat)
    (delta : K) (stop : Bool) (self : Part) (mc : Clu K) :
    metaLoop sc par T S steps k0 delta stop self mc =
      match (metaWrites sc par save T S steps k0 delta stop self mc).2 with
      | .ok k => .ok (k, lastPart self (metaWrites sc par save T S steps k0 delta stop self mc).1)
      | .error e => .error e := by
  induction steps generalizing k0 delta stop self mc with
  | zero => rfl
  | succ steps ih =>
    simp only [metaLoop, metaWrites]
    by_cases hc : delta ≤ par.thr ∨ stop = true ∨ par.nMeta < k0
    · rw [if_pos hc, if_pos hc]
      rfl
    · rw [if_neg hc, if_neg hc]
      cases hm : moveNodes sc (k0 + 1) par.thr par.nSub mc (par.nSub + 1) with
      | error e => rfl
      | ok r =>
        obtain ⟨d, nl, mp⟩ := r
        simp only
        cases hu : updatePart self mp with
        | error e => rfl
        | ok self' =>
          simp only
          by_cases hs : (∀ c ∈ self'.clusters, c.card = 1) ∨ par.nMeta < k0 + 1 ∨ d ≤ par.thr
          · rw [if_pos hs, if_pos hs, ih]
            simp only [lastPart, lastPart_append, lastPart_saveIf]
          · rw [if_neg hs, if_neg hs]
            cases ha : aggregate T S self' with
            | error e => rfl
            | ok mc' =>
              simp only
              rw [ih]
              simp only [lastPart, lastPart_append, lastPart_saveIf]

/-- The complete run is the run of `Verif.Louvain.Model`. -/
theorem runWrites_eq (sc : Sched) (par : Params K) (save : Bool) (c : Clu K) :
    findLouvain sc par c =
      match (runWrites sc par save c).2 with
      | .ok k => .ok (k, lastPart c.part (runWrites sc par save c).1)
      | .error e => .error e := by
  have hb : findLouvain sc par c =
      match (baseWrites sc par save c).2 with
      | .ok k => .ok (k, lastPart c.part (baseWrites sc par save c).1)
      | .error e => .error e := by
    unfold findLouvain baseWrites
    split
    · rfl
    · split
      · cases hm : mk' c.n (.clusterList [Finset.range c.n]) false with
        | error e => rfl
        | ok p =>
          simp only [lastPart_append, lastPart_saveIf]
          rfl
      · cases hm : mkClu c.n c.T c.S (.clusterList c.part.clusters) with
        | error e => rfl
        | ok mc =>
          simp only [lastPart_append, lastPart_saveIf]
          exact metaWrites_eq ..
  rw [hb]
  unfold runWrites
  rcases hw : baseWrites sc par save c with ⟨ws, r⟩
  cases r with
  | error e => rfl
  | ok k =>
    simp only [lastPart_append]
    rfl

theorem base_no_finish (sc : Sched) (par : Params K) (save : Bool) (c : Clu K) :
    Write.finish ∉ (baseWrites sc par save c).1 := by
  have hs : Write.finish ∉ saveIf save := by cases save <;> simp [saveIf]
  unfold baseWrites
  split
  · exact hs
  · split
    · split
      · exact hs
      · simp [hs]
    · split
      · exact hs
      · rename_i mc _
        obtain ⟨ps, ex, -, h2, -⟩ := metaWrites_shape sc par save c.T c.S (par.nMeta + 3) 0 1 false c.part mc
        simp only
        rw [h2]
        simp [hs]

/-- Valid partitions, each coarser than and at least as good as the one before. -/
def Grows (S : Nat → Nat → K) (n : Nat) : Part → List Write → Prop
  | _, [] => True
  | p, .setPart q :: ws => Valid n q ∧ Coarser p q ∧ stability S p ≤ stability S q ∧ Grows S n q ws
  | p, .save :: ws => Grows S n p ws
  | p, .finish :: ws => Grows S n p ws

theorem grows_saveIf (S : Nat → Nat → K) (n : Nat) (p : Part) (s : Bool) (ws : List Write) :
    Grows S n p (saveIf s ++ ws) ↔ Grows S n p ws := by cases s <;> exact Iff.rfl

theorem grows_finish (S : Nat → Nat → K) (n : Nat) (p : Part) (ws : List Write) (h : Grows S n p ws) :
    Grows S n p (ws ++ [.finish]) := by
  induction ws generalizing p with
  | nil => trivial
  | cons w ws ih =>
    cases w with
    | setPart q => exact ⟨h.1, h.2.1, h.2.2.1, ih q h.2.2.2⟩
    | save => exact ih p h
    | finish => exact ih p h

theorem coarser_refl (p : Part) : Coarser p p := fun _ _ h => h

theorem coarser_trans {p q r : Part} (h : Coarser p q) (h' : Coarser q r) : Coarser p r :=
  fun u v huv => h' u v (h u v huv)

/-- Up to any point of the writes. -/
theorem grows_take (S : Nat → Nat → K) (n : Nat) (p : Part) (ws : List Write) (hp : Valid n p)
    (h : Grows S n p ws) (j : Nat) :
    Valid n (lastPart p (ws.take j)) ∧ Coarser p (lastPart p (ws.take j)) ∧
      stability S p ≤ stability S (lastPart p (ws.take j)) ∧ Grows S n (lastPart p (ws.take j)) (ws.drop j) := by
  induction ws generalizing p j with
  | nil => simp only [List.take_nil, List.drop_nil, lastPart]; exact ⟨hp, coarser_refl p, le_rfl, trivial⟩
  | cons w ws ih =>
    cases j with
    | zero => exact ⟨hp, coarser_refl p, le_rfl, h⟩
    | succ j =>
      rw [List.take_succ_cons, List.drop_succ_cons]
      cases w with
      | setPart q =>
        obtain ⟨a, b, c, d⟩ := ih q h.1 h.2.2.2 j
        exact ⟨a, coarser_trans h.2.1 b, le_trans h.2.2.1 c, d⟩
      | save => exact ih p hp h j
      | finish => exact ih p hp h j

theorem metaWrites_grows (sc : Sched) (par : Params K) (save : Bool) (T S : Nat → Nat → K) (n steps k0 : Nat)
    (delta : K) (stop : Bool) (self : Part) (mc : Clu K) (hself : Valid n self) (hpos : 0 < n)
    (hinv : stop = true ∨ (Consistent mc.part ∧ mc.part.numNodes = mc.n ∧
      mc.n = self.clusters.length ∧ (∀ p : Part, p.numNodes = mc.n → Consistent p →
        stability mc.S p = stability (aggS S self.clusters) p) ∧
      stability mc.S mc.part = stability S self)) :
    Grows S n self (metaWrites sc par save T S steps k0 delta stop self mc).1 := by
  induction steps generalizing k0 delta stop self mc with
  | zero => trivial
  | succ steps ih =>
    simp only [metaWrites]
    split
    · trivial
    · rename_i hcond
      have hstop : stop ≠ true := fun h => hcond (Or.inr (Or.inl h))
      obtain ⟨hmc, hmn, hlen, hS, hst⟩ := hinv.resolve_left hstop
      split
      · trivial
      · rename_i d nl mp hmove
        unfold moveNodes at hmove
        rw [← hmn] at hmove
        obtain ⟨g, k', p1, h1, h2, h3, h4, h5, h6⟩ := moveLoop_spec sc (k0 + 1) par.thr par.nSub mc.S mc.T
          (par.nSub + 1) 1 1 0 hmc (by omega)
        rw [h1] at hmove
        injection hmove with hmove
        simp only [Prod.mk.injEq] at hmove
        obtain ⟨hd, _, rfl⟩ := hmove
        have hp1n : p1.numNodes = self.clusters.length := by rw [h3, hmn, hlen]
        obtain ⟨self', h7, h8, h9, h10, h11⟩ := updatePart_spec hself.1 hself.2.2 h2 hp1n
          (by rw [hself.2.1]; exact hpos)
        rw [h7]
        simp only
        have hst' : stability S self' = stability S self + g := by
          rw [← stability_induced S hself.1 h2 hp1n h8 h9 h11,
            ← hS p1 (by rw [h3, hmn]) h2, h5, hst]
        have hle : stability S self ≤ stability S self' := by rw [hst']; linarith
        have hval : Valid n self' := ⟨h8, h9.trans hself.2.1, h10⟩
        have hco : Coarser self self' := by
          rintro u v ⟨i, hu, hv⟩
          rw [h11 u v i i hu hv]
          have hi : i < p1.numNodes := by rw [hp1n]; exact at_lt hu
          obtain ⟨j, hj, -⟩ := (h2.1 i).1 hi
          exact ⟨j, hj, hj⟩
        split
        · exact ⟨hval, hco, hle, (grows_saveIf ..).2 (ih _ _ _ _ _ hval (Or.inl rfl))⟩
        · split
          · exact ⟨hval, hco, hle, trivial⟩
          · rename_i mc' hagg
            obtain ⟨e1, e2, e3, e4, e5⟩ := aggregate_ok T S hagg
            exact ⟨hval, hco, hle, (grows_saveIf ..).2 (ih _ _ _ _ _ hval (Or.inr
              ⟨e3, by rw [e4, e2], e2, fun p _ _ => by rw [e1],
                by rw [e1]; exact stability_agg_singletons S h8 e3 e4 e5⟩))⟩

theorem fresh_part {c : Clu K} (h : FreshDefault c) : rowsOk c.n c.T ∧ Consistent c.part ∧
    c.part.numNodes = c.n ∧ c.part.clusters = singletons c.n := by
  unfold FreshDefault mkClu at h
  obtain ⟨q, hq, h1, h2, h3⟩ := mk'_none c.n false
  rw [hq] at h
  split at h
  · rename_i hr
    injection h with h
    have : c.part = q := by rw [← h]
    rw [this]
    exact ⟨hr, h1, h2, h3⟩
  · simp at h

theorem fresh_valid {c : Clu K} (h : FreshDefault c) : Valid c.n c.part := by
  obtain ⟨-, h1, h2, h3⟩ := fresh_part h
  exact ⟨h1, h2, by rw [h3]; exact singletons_nonempty _⟩

theorem fresh_copy {c : Clu K} (h : FreshDefault c) :
    mkClu c.n c.T c.S (.clusterList c.part.clusters) = .ok c := by
  obtain ⟨hr, h1, h2, h3⟩ := fresh_part h
  unfold mkClu
  rw [if_pos hr, mk'_clusterList]
  have hqe : removeEmpty ⟨c.n, c.part.clusters, dictOf c.part.clusters⟩ = c.part := by
    have := removeEmpty_of_nonempty h1 (by rw [h3]; exact singletons_nonempty _)
    conv_rhs => rw [← this]
    unfold removeEmpty
    simp only [h2]
  rw [hqe]

theorem run_grows (sc : Sched) (par : Params K) (save : Bool) (c : Clu K) (h : FreshDefault c)
    (hS : ¬ sIsZero c.n c.S) : Grows c.S c.n c.part (runWrites sc par save c).1 := by
  have hb : Grows c.S c.n c.part (baseWrites sc par save c).1 := by
    unfold baseWrites
    split
    · have := (grows_saveIf c.S c.n c.part save []).2 trivial
      rwa [List.append_nil] at this
    · rename_i hn
      rw [fresh_copy h]
      obtain ⟨-, h1, h2, h3⟩ := fresh_part h
      have hlen : c.part.clusters.length = c.n := by rw [h3]; simp [singletons]
      refine (grows_saveIf ..).2 (metaWrites_grows sc par save c.T c.S c.n _ _ _ _ _ _ (fresh_valid h)
        (by omega) (Or.inr ⟨h1, h2, hlen.symm, fun r hr hrc => stability_congr _ _ hrc.1 ?_, rfl⟩))
      intro i hi j hj
      rw [h3, aggS_singletons c.S c.n i j (by omega) (by omega)]
  unfold runWrites
  rcases hw : baseWrites sc par save c with ⟨ws, r⟩
  rw [hw] at hb
  cases r with
  | error e => exact hb
  | ok k => exact grows_finish _ _ _ _ hb

theorem lookup_set {V : Type} (d : List (Int × V)) (k j : Int) (v : V) :
    (setItem d k v).lookup j = if j = k then some v else d.lookup j := by
  unfold setItem
  rw [List.lookup_cons]
  by_cases h : j = k
  · subst h; simp
  · rw [if_neg h]
    have : (j == k) = false := by simpa using h
    rw [this]

end Verif.FlowRuns
