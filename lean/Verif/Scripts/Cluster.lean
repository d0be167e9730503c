import Verif.Scripts.ClusterModel
import Mathlib.Algebra.Field.Rat
import Mathlib.Algebra.Order.Ring.Rat
import Mathlib.Tactic.NormNum
import Mathlib.Tactic.Ring

/-!
C51 (restarts of run_clusterings) and C68 (summary of the repetitions).
-/

set_option linter.unusedSectionVars false

namespace Verif.Scripts.Cluster

variable {K : Type} [Field K] [LinearOrder K] [IsStrictOrderedRing K]

/-! ## Specification -/

/-- The same clustering: the same clusters, listed in any order. -/
def Same (c c' : Clusters) : Prop := c.Perm c'

/-- `counts` says how often each of the different clusterings was found. -/
structure Counts (draws : List (Draw K)) (counts : List (List (List Nat) × Nat)) : Prop where
  /-- every repetition is counted under its clustering, listed with sorted nodes -/
  counted : ∀ e ∈ draws, ∃ x ∈ counts, Same (x.1.map List.toFinset) e.clusters
  /-- the number of repetitions with this clustering -/
  number : ∀ x ∈ counts, ∃ same : List (Draw K), same.Sublist draws ∧ same.length = x.2 ∧ 0 < x.2 ∧
    ∀ e ∈ draws, e ∈ same ↔ Same (x.1.map List.toFinset) e.clusters
  /-- different entries are different clusterings -/
  distinct : counts.Pairwise fun x y => ¬ Same (x.1.map List.toFinset) (y.1.map List.toFinset)
  total : (counts.map Prod.snd).sum = draws.length

/-- The mean of a list; there is none (NaN) for the empty list. -/
def IsMean (l : List K) (m : Option K) : Prop := (l = [] ∧ m = none) ∨ ∃ a, m = some a ∧ l ≠ [] ∧ a * (l.length : K) = l.sum

/-- What a summary of repetitions has to say about them. -/
structure Summarises (nvi : Clusters → Clusters → Nat → K) (n : Nat) (samples : Nat) (draws : List (Draw K)) (s : Summary K) :
    Prop where
  counts : Counts draws s.counter
  stabs : s.stabs = draws.map Draw.stab
  seeds : s.seeds = draws.map Draw.seed
  /-- the best clustering was found by a repetition, and no repetition has a larger stability -/
  best : ∃ e ∈ draws, e.clusters = s.best ∧ e.stab = s.bestStab ∧ ∀ f ∈ draws, f.stab ≤ s.bestStab
  avgStab : IsMean (draws.map Draw.stab) s.avgStab
  avgNclust : IsMean (draws.map fun e => (e.clusters.length : K)) s.avgNclust
  /-- the average variation of information is over the requested number of different pairs of repetitions -/
  nvi : ∃ sample : List (Nat × Nat), sample.Nodup ∧ sample.length = samples ∧
    (∀ p ∈ sample, p.1 < p.2 ∧ p.2 < draws.length) ∧
    IsMean (sample.map fun p => nvi ((draws[p.1]?).elim [] Draw.clusters) ((draws[p.2]?).elim [] Draw.clusters) n) s.nvi

/-- `np.random.choice(range(m), k, replace=False)` returns `k` different numbers below `m`. -/
structure Choice (m k : Nat) (l : List Nat) : Prop where
  nodup : l.Nodup
  length : l.length = k
  below : ∀ i ∈ l, i < m

/-- The repetitions of a run: as many as requested, and numbers chosen as specified. -/
structure Valid (cfg : Cfg) (r : Rand K) : Prop where
  draws : ∀ l, r.draws = some l → l.length = cfg.numRepeat
  staticDraws : ∀ l, r.staticDraws = some l → l.length = cfg.numRepeat
  choice : Choice cfg.maxSamples cfg.samples r.choice
  staticChoice : Choice cfg.maxSamples cfg.samples r.staticChoice

/-! ## Counter -/

section counter

variable {κ : Type} [DecidableEq κ]

theorem bump_keys (x : κ) (c : List (κ × Nat)) :
    (bump x c).map Prod.fst = if x ∈ c.map Prod.fst then c.map Prod.fst else c.map Prod.fst ++ [x] := by
  induction c with
  | nil => rfl
  | cons e c ih =>
    obtain ⟨y, k⟩ := e
    unfold bump
    by_cases h : y = x
    · rw [if_pos h, if_pos (by simp [h])]
      rfl
    · rw [if_neg h, List.map_cons, ih, List.map_cons]
      by_cases h2 : x ∈ c.map Prod.fst
      · rw [if_pos h2, if_pos (List.mem_cons_of_mem _ h2)]
      · rw [if_neg h2, if_neg]
        · rfl
        · rw [List.mem_cons]
          rintro (h3 | h3)
          · exact h h3.symm
          · exact h2 h3

theorem bump_sum (x : κ) (c : List (κ × Nat)) : ((bump x c).map Prod.snd).sum = (c.map Prod.snd).sum + 1 := by
  induction c with
  | nil => rfl
  | cons e c ih =>
    obtain ⟨y, k⟩ := e
    unfold bump
    split
    · simp only [List.map_cons, List.sum_cons]; omega
    · simp only [List.map_cons, List.sum_cons, ih]; omega

theorem mem_bump {x : κ} {c : List (κ × Nat)} {y : κ} {k : Nat} (h : (y, k) ∈ bump x c) (hn : (c.map Prod.fst).Nodup) :
    (y ≠ x ∧ (y, k) ∈ c) ∨ (y = x ∧ ((k = 1 ∧ x ∉ c.map Prod.fst) ∨ ∃ j, (x, j) ∈ c ∧ k = j + 1)) := by
  induction c with
  | nil =>
    simp only [bump, List.mem_singleton, Prod.mk.injEq] at h
    exact .inr ⟨h.1, .inl ⟨h.2, by simp⟩⟩
  | cons e c ih =>
    obtain ⟨z, j⟩ := e
    rw [List.map_cons, List.nodup_cons] at hn
    unfold bump at h
    split at h
    · next hz =>
      rcases List.mem_cons.1 h with h | h
      · injection h with h1 h2
        refine .inr ⟨h1.trans hz, .inr ⟨j, ?_, h2⟩⟩
        rw [hz]; exact List.mem_cons_self
      · left
        refine ⟨?_, List.mem_cons_of_mem _ h⟩
        rintro rfl
        apply hn.1
        dsimp only
        rw [hz]
        exact List.mem_map.2 ⟨_, h, rfl⟩
    · next hz =>
      rcases List.mem_cons.1 h with h | h
      · injection h with h1 h2
        subst h1 h2
        exact .inl ⟨hz, List.mem_cons_self⟩
      · rcases ih h hn.2 with ⟨h1, h2⟩ | ⟨h1, ⟨h2, h3⟩ | ⟨i, h2, h3⟩⟩
        · exact .inl ⟨h1, List.mem_cons_of_mem _ h2⟩
        · refine .inr ⟨h1, .inl ⟨h2, ?_⟩⟩
          rw [List.map_cons, List.mem_cons]
          rintro (h4 | h4)
          · exact hz h4.symm
          · exact h3 h4
        · exact .inr ⟨h1, .inr ⟨i, List.mem_cons_of_mem _ h2, h3⟩⟩

theorem counter_spec (l : List κ) : ((counter l).map Prod.fst).Nodup ∧ (∀ x, x ∈ (counter l).map Prod.fst ↔ x ∈ l) ∧
    (∀ x ∈ counter l, x.2 = l.countP fun y => decide (y = x.1)) ∧ ((counter l).map Prod.snd).sum = l.length := by
  induction l using List.reverseRecOn with
  | nil => simp [counter]
  | append_singleton l a ih =>
    obtain ⟨h1, h2, h3, h4⟩ := ih
    have e : counter (l ++ [a]) = bump a (counter l) := by
      unfold counter; rw [List.foldl_append]; rfl
    rw [e]
    refine ⟨?_, ?_, ?_, ?_⟩
    · rw [bump_keys]
      split
      · exact h1
      · next h => exact List.nodup_append.2 ⟨h1, List.nodup_singleton a, by
          intro x hx y hy hxy
          rw [List.mem_singleton] at hy
          exact h (hy ▸ hxy ▸ hx)⟩
    · intro x
      rw [bump_keys]
      split
      · next h =>
        rw [h2, List.mem_append, List.mem_singleton]
        exact ⟨.inl, fun hx => hx.elim id fun hx => hx ▸ (h2 a).1 h⟩
      · rw [List.mem_append, List.mem_append, h2]
    · rintro ⟨y, k⟩ hx
      dsimp only
      rw [List.countP_append]
      rcases mem_bump hx h1 with ⟨b1, b2⟩ | ⟨b1, ⟨b2, b3⟩ | ⟨j, b2, b3⟩⟩
      · have := h3 _ b2
        dsimp only at this
        rw [this]
        simp [Ne.symm b1]
      · subst b1
        rw [b2, List.countP_eq_zero.2]
        · simp
        · intro z hz
          rw [decide_eq_true_iff]
          rintro rfl
          exact b3 ((h2 z).2 hz)
      · subst b1
        have := h3 _ b2
        dsimp only at this
        rw [b3, this]
        simp
    · rw [bump_sum, h4, List.length_append]
      rfl

end counter

/-! ## The listing of a clustering -/

theorem map_toFinset_sort (c : Clusters) : (c.map fun s => s.sort (· ≤ ·)).map List.toFinset = c := by
  rw [List.map_map]
  conv_rhs => rw [← List.map_id c]
  apply List.map_congr_left
  intro s _
  simp

theorem canon_same (c : Clusters) : Same ((canon c).map List.toFinset) c := by
  unfold canon Same
  have h := (List.perm_insertionSort (· ≤ ·) (c.map fun s => s.sort (· ≤ ·))).map List.toFinset
  rw [map_toFinset_sort] at h
  exact h

theorem canon_eq_iff (c c' : Clusters) : canon c = canon c' ↔ Same c c' := by
  constructor
  · intro h
    have h1 := canon_same c
    rw [h] at h1
    exact h1.symm.trans (canon_same c')
  · intro h
    unfold canon
    have hp : (c.map fun s => s.sort (· ≤ ·)).Perm (c'.map fun s => s.sort (· ≤ ·)) := h.map _
    have h1 : ((c.map fun s => s.sort (· ≤ ·)).insertionSort (· ≤ ·)).Perm
        ((c'.map fun s => s.sort (· ≤ ·)).insertionSort (· ≤ ·)) :=
      (List.perm_insertionSort _ _).trans (hp.trans (List.perm_insertionSort _ _).symm)
    exact h1.eq_of_pairwise (fun a b _ _ h1 h2 => le_antisymm h1 h2) (List.pairwise_insertionSort _ _) (List.pairwise_insertionSort _ _)

theorem counter_counts (draws : List (Draw K)) : Counts draws (counter (draws.map fun e => canon e.clusters)) := by
  obtain ⟨h1, h2, h3, h4⟩ := counter_spec (draws.map fun e => canon e.clusters)
  have key : ∀ x ∈ counter (draws.map fun e => canon e.clusters), ∃ e ∈ draws, canon e.clusters = x.1 := by
    intro x hx
    obtain ⟨e, he, h⟩ := List.mem_map.1 ((h2 x.1).1 (List.mem_map.2 ⟨x, hx, rfl⟩))
    exact ⟨e, he, h⟩
  refine ⟨?_, ?_, ?_, ?_⟩
  · intro e he
    obtain ⟨x, hx, hxe⟩ := List.mem_map.1 ((h2 (canon e.clusters)).2 (List.mem_map.2 ⟨e, he, rfl⟩))
    exact ⟨x, hx, by rw [hxe]; exact canon_same _⟩
  · intro x hx
    obtain ⟨e0, he0, hc⟩ := key x hx
    refine ⟨draws.filter fun e => decide (canon e.clusters = x.1), List.filter_sublist, ?_, ?_, ?_⟩
    · rw [h3 x hx, List.countP_map, List.countP_eq_length_filter]
      rfl
    · rw [h3 x hx, List.countP_pos_iff]
      exact ⟨x.1, (h2 _).1 (List.mem_map.2 ⟨x, hx, rfl⟩), by simp⟩
    · intro e he
      rw [List.mem_filter, decide_eq_true_iff, ← hc, canon_eq_iff]
      constructor
      · rintro ⟨-, h⟩
        exact (canon_same _).trans h.symm
      · intro h
        exact ⟨he, h.symm.trans (canon_same _)⟩
  · rw [List.Nodup, List.pairwise_map] at h1
    refine h1.imp_of_mem ?_
    intro x y hx hy hxy hs
    obtain ⟨e, -, hc⟩ := key x hx
    obtain ⟨e', -, hc'⟩ := key y hy
    apply hxy
    rw [← hc, ← hc', canon_eq_iff]
    rw [← hc, ← hc'] at hs
    exact (canon_same _).symm.trans (hs.trans (canon_same _))
  · rw [h4, List.length_map]

/-! ## The best clustering -/

theorem foldl_max (l : List K) : ∀ x : K, x ≤ l.foldl max x ∧ (∀ y ∈ l, y ≤ l.foldl max x) ∧ l.foldl max x ∈ x :: l := by
  induction l with
  | nil => intro x; simp
  | cons a l ih =>
    intro x
    obtain ⟨h1, h2, h3⟩ := ih (max x a)
    refine ⟨(le_max_left x a).trans h1, ?_, ?_⟩
    · intro y hy
      rcases List.mem_cons.1 hy with rfl | hy
      · exact (le_max_right _ _).trans h1
      · exact h2 y hy
    · rw [List.foldl_cons]
      rcases List.mem_cons.1 h3 with h | h
      · rw [h]
        rcases max_choice x a with h' | h' <;> rw [h'] <;> simp
      · exact List.mem_cons_of_mem _ (List.mem_cons_of_mem _ h)

theorem argmax_spec (l : List K) : ∀ x : K, argmax x l < l.length + 1 ∧
    (x :: l)[argmax x l]? = some (l.foldl max x) := by
  induction l with
  | nil => intro x; exact ⟨Nat.one_pos, rfl⟩
  | cons y l ih =>
    intro x
    obtain ⟨h1, h2⟩ := ih y
    have e1 : (y :: l).foldl max y = l.foldl max y := by rw [List.foldl_cons, max_self]
    have key : (y :: l).foldl max x = max x (l.foldl max y) := by
      apply le_antisymm
      · have h := (foldl_max (y :: l) x).2.2
        rcases List.mem_cons.1 h with h | h
        · rw [h]; exact le_max_left _ _
        · refine le_trans ?_ (le_max_right _ _)
          rcases List.mem_cons.1 h with h | h
          · rw [h]; exact (foldl_max l y).1
          · exact (foldl_max l y).2.1 _ h
      · refine max_le (foldl_max (y :: l) x).1 ?_
        rcases List.mem_cons.1 (foldl_max l y).2.2 with h | h
        · rw [h]; exact (foldl_max (y :: l) x).2.1 _ List.mem_cons_self
        · exact (foldl_max (y :: l) x).2.1 _ (List.mem_cons_of_mem _ h)
    unfold argmax
    rw [e1, key]
    split
    · next hlt =>
      refine ⟨by rw [List.length_cons]; omega, ?_⟩
      rw [List.getElem?_cons_succ, h2, max_eq_right hlt.le]
    · next hlt =>
      refine ⟨by omega, ?_⟩
      rw [max_eq_left (not_lt.1 hlt)]
      rfl

theorem bestOf_spec (d : Draw K) (ds : List (Draw K)) : ∃ e ∈ d :: ds, e.clusters = (bestOf d ds).1 ∧
    e.stab = (bestOf d ds).2 ∧ ∀ f ∈ d :: ds, f.stab ≤ (bestOf d ds).2 := by
  obtain ⟨h1, h2⟩ := argmax_spec (ds.map Draw.stab) d.stab
  rw [List.length_map] at h1
  have hlt : argmax d.stab (ds.map Draw.stab) < (d :: ds).length := by rw [List.length_cons]; exact h1
  have hmap : d.stab :: ds.map Draw.stab = (d :: ds).map Draw.stab := rfl
  rw [hmap, List.getElem?_map, List.getElem?_eq_getElem hlt, Option.map_some] at h2
  injection h2 with h2
  refine ⟨(d :: ds)[argmax d.stab (ds.map Draw.stab)], List.getElem_mem hlt, ?_, h2, ?_⟩
  · unfold bestOf
    rw [List.getD_eq_getElem?_getD, List.getElem?_eq_getElem hlt]
    rfl
  · intro f hf
    rcases List.mem_cons.1 hf with rfl | hf
    · exact (foldl_max _ _).1
    · exact (foldl_max _ _).2.1 _ (List.mem_map.2 ⟨f, hf, rfl⟩)

theorem mean_spec (l : List K) : IsMean l (mean l) := by
  unfold mean IsMean
  split
  · next h => exact .inl ⟨List.length_eq_zero_iff.1 h, rfl⟩
  · next h =>
    refine .inr ⟨_, rfl, fun hc => h (by rw [hc]; rfl), ?_⟩
    have : (l.length : K) ≠ 0 := Nat.cast_ne_zero.2 h
    rw [div_mul_cancel₀ _ this]

/-! ## The pairs -/

theorem pairs_map {α β : Type} (f : α → β) (l : List α) : pairs (l.map f) = (pairs l).map (Prod.map f f) := by
  induction l with
  | nil => rfl
  | cons a l ih =>
    simp only [List.map_cons, pairs, ih, List.map_append, List.map_map]
    rfl

theorem pairs_length {α : Type} (l : List α) : (pairs l).length = l.length * (l.length - 1) / 2 := by
  induction l with
  | nil => simp [pairs]
  | cons a l ih =>
    simp only [pairs, List.length_append, List.length_map, ih, List.length_cons, Nat.add_sub_cancel]
    cases h : l.length with
    | zero => rfl
    | succ m =>
      rw [Nat.add_sub_cancel]
      have : (m + 1 + 1) * (m + 1) = (m + 1) * m + (m + 1) * 2 := by ring
      rw [this, Nat.add_mul_div_right _ _ (by omega)]
      omega

theorem pairs_sorted {l : List Nat} (h : l.Pairwise (· < ·)) : (pairs l).Nodup ∧
    ∀ p ∈ pairs l, p.1 < p.2 ∧ p.1 ∈ l ∧ p.2 ∈ l := by
  induction l with
  | nil => exact ⟨List.nodup_nil, fun p hp => nomatch hp⟩
  | cons a l ih =>
    obtain ⟨h1, h2⟩ := List.pairwise_cons.1 h
    obtain ⟨i1, i2⟩ := ih h2
    refine ⟨?_, ?_⟩
    · refine List.nodup_append.2 ⟨?_, i1, ?_⟩
      · exact (h2.imp (fun hab => Nat.ne_of_lt hab)).map _ (by
          intro x y hxy hc
          injection hc with _ hc
          exact hxy hc)
      · intro p hp q hq hpq
        obtain ⟨b, -, rfl⟩ := List.mem_map.1 hp
        subst hpq
        have := h1 a (i2 _ hq).2.1
        omega
    · intro p hp
      rcases List.mem_append.1 hp with hp | hp
      · obtain ⟨b, hb, rfl⟩ := List.mem_map.1 hp
        exact ⟨h1 b hb, List.mem_cons_self, List.mem_cons_of_mem _ hb⟩
      · obtain ⟨a1, a2, a3⟩ := i2 p hp
        exact ⟨a1, List.mem_cons_of_mem _ a2, List.mem_cons_of_mem _ a3⟩

theorem pick_map {α β : Type} (idx : List Nat) (f : α → β) (l : List α) : pick idx (l.map f) = (pick idx l).map f := by
  unfold pick
  rw [List.zipIdx_map, List.filter_map, List.map_map, List.map_map]
  rfl

theorem pick_sublist {α : Type} (idx : List Nat) (l : List α) : (pick idx l).Sublist l := by
  unfold pick
  have h : ((l.zipIdx.filter fun e => decide (e.2 ∈ idx)).map Prod.fst).Sublist (l.zipIdx.map Prod.fst) :=
    List.filter_sublist.map _
  rwa [List.zipIdx_map_fst] at h

theorem pick_length {α : Type} {idx : List Nat} {l : List α} (hn : idx.Nodup) (hb : ∀ i ∈ idx, i < l.length) :
    (pick idx l).length = idx.length := by
  unfold pick
  rw [List.length_map]
  have h1 : (l.zipIdx.filter fun e => decide (e.2 ∈ idx)).length =
      ((l.zipIdx.map Prod.snd).filter fun i => decide (i ∈ idx)).length := by
    rw [List.filter_map, List.length_map]
    rfl
  rw [h1, List.zipIdx_map_snd]
  apply List.Perm.length_eq
  rw [List.perm_ext_iff_of_nodup (List.Nodup.filter _ (List.nodup_range' ..)) hn]
  intro i
  rw [List.mem_filter, decide_eq_true_iff, List.mem_range'_1]
  constructor
  · exact fun h => h.2
  · intro h
    exact ⟨⟨Nat.zero_le _, by rw [Nat.zero_add]; exact hb i h⟩, h⟩

theorem nvi_spec (nvi : Clusters → Clusters → Nat → K) (n m : Nat) (draws : List (Draw K)) (choice : List Nat)
    (hc : Choice (draws.length * (draws.length - 1) / 2) m choice) : ∃ sample : List (Nat × Nat), sample.Nodup ∧
      sample.length = m ∧ (∀ p ∈ sample, p.1 < p.2 ∧ p.2 < draws.length) ∧
      IsMean (sample.map fun p => nvi ((draws[p.1]?).elim [] Draw.clusters) ((draws[p.2]?).elim [] Draw.clusters) n)
        (mean ((pick choice (pairs (draws.map Draw.clusters))).map fun e => nvi e.1 e.2 n)) := by
  have hd : draws.map Draw.clusters = (List.range draws.length).map fun i => (draws[i]?).elim [] Draw.clusters := by
    apply List.ext_getElem
    · simp
    · intro i h1 h2
      rw [List.length_map] at h1
      simp [h1]
  have hs := pairs_sorted (List.pairwise_lt_range (n := draws.length))
  refine ⟨pick choice (pairs (List.range draws.length)), (pick_sublist _ _).nodup hs.1, ?_, ?_, ?_⟩
  · rw [pick_length hc.nodup, hc.length]
    intro i hi
    rw [pairs_length, List.length_range]
    exact hc.below i hi
  · intro p hp
    obtain ⟨h1, -, h3⟩ := hs.2 p ((pick_sublist _ _).subset hp)
    exact ⟨h1, List.mem_range.1 h3⟩
  · rw [hd, pairs_map, pick_map, List.map_map]
    exact mean_spec _

/-- **C68**.  The saved summary describes the repetitions. -/
theorem C68_summary (nvi : Clusters → Clusters → Nat → K) (n : Nat) {cfg : Cfg} {d : Draw K} {ds : List (Draw K)}
    (hlen : (d :: ds).length = cfg.numRepeat) {choice : List Nat} (hc : Choice cfg.maxSamples cfg.samples choice) :
    Summarises nvi n cfg.samples (d :: ds) (summarise nvi n choice d ds) where
  counts := counter_counts _
  stabs := rfl
  seeds := rfl
  best := bestOf_spec d ds
  avgStab := mean_spec _
  avgNclust := mean_spec _
  nvi := nvi_spec nvi n _ _ _ (by rw [hlen]; exact hc)

/-- **C68**.  The number of pairs is the number requested, or all pairs if that is less; by default
all pairs. -/
theorem C68_number_of_pairs (cfg : Cfg) : cfg.samples = (cfg.numVarinf.elim id min) (cfg.numRepeat * (cfg.numRepeat - 1) / 2) := by
  unfold Cfg.samples Cfg.maxSamples
  cases cfg.numVarinf with
  | none => rfl
  | some k =>
    dsimp only [Option.elim]
    split <;> omega

/-! ## Restarts -/

/-- The repetitions `draws`, which exist if they were requested, are summarised by `s`. -/
def Part (nvi : Clusters → Clusters → Nat → K) (n samples : Nat) (wanted : Bool) (draws : Option (List (Draw K)))
    (s : Option (Summary K)) : Prop :=
  if wanted then ∃ l t, draws = some l ∧ s = some t ∧ Summarises nvi n samples l t else s = none

/-- A complete result file, with the summaries of the repetitions of a run with arguments `cfg`. -/
def Finished (nvi : Clusters → Clusters → Nat → K) (d : Disk K) : Prop :=
  ∃ (cfg : Cfg) (r : Rand K) (n : Nat) (res : Res K), Valid cfg r ∧ r.nodes = some n ∧ d.res = some (.whole res) ∧
    res.numRepeat = cfg.numRepeat ∧
    Part nvi n cfg.samples cfg.computeClustering r.draws res.dynamic ∧
    Part nvi n cfg.samples (cfg.computeStatic && r.adjacency) r.staticDraws res.static

/-- No exception in the calls of other modules, and at least one repetition. -/
structure Healthy (cfg : Cfg) (r : Rand K) : Prop where
  nodes : r.nodes ≠ none
  draws : cfg.computeClustering = true → r.draws ≠ none ∧ r.draws ≠ some []
  staticDraws : cfg.computeStatic = true → r.adjacency = true → r.staticDraws ≠ none ∧ r.staticDraws ≠ some []

/-- The disks that runs that are killed between two writes can leave, each run with its own arguments, among
those allowed, and its own random numbers. -/
inductive Crashes (nvi : Clusters → Clusters → Nat → K) (allowed : Cfg → Prop) : Disk K → Prop
  | start : Crashes nvi allowed .empty
  | run {d : Disk K} (cfg : Cfg) (r : Rand K) (ws : List (Write K)) : Crashes nvi allowed d → allowed cfg → Valid cfg r →
      ws <+: (worker nvi cfg r d).log → Crashes nvi allowed (ws.foldl Disk.write d)

theorem part_of {nvi : Clusters → Clusters → Nat → K} {n : Nat} {cfg : Cfg} {wanted : Bool} {draws : Option (List (Draw K))}
    {choice : List Nat} (hlen : ∀ l, draws = some l → l.length = cfg.numRepeat)
    (hc : Choice cfg.maxSamples cfg.samples choice) {p : Option (Draw K × List (Draw K))}
    (h : (if wanted then (unpack draws).map some else .ok none) = .ok p) :
    Part nvi n cfg.samples wanted draws (p.map fun p => summarise nvi n choice p.1 p.2) := by
  cases wanted with
  | false =>
    simp only [Bool.false_eq_true, if_false] at h
    injection h with h
    subst h
    simp [Part]
  | true =>
    rw [if_pos rfl] at h
    match draws, h, hlen with
    | none, h, _ => exact (nomatch h)
    | some [], h, _ => exact (nomatch h)
    | some (d :: ds), h, hlen =>
      injection h with h
      subst h
      exact ⟨_, _, rfl, rfl, C68_summary nvi n (hlen _ rfl) hc⟩

theorem unpack_ok {wanted : Bool} {draws : Option (List (Draw K))} (h : wanted = true → draws ≠ none ∧ draws ≠ some []) :
    ∃ p, (if wanted then (unpack draws).map some else .ok none) = .ok p := by
  cases wanted with
  | false => exact ⟨none, rfl⟩
  | true =>
    match draws, h rfl with
    | none, h => exact absurd rfl h.1
    | some [], h => exact absurd rfl h.2
    | some (d :: ds), _ => exact ⟨_, rfl⟩

/-- Writes of a run that starts without files. -/
theorem worker_fresh (nvi : Clusters → Clusters → Nat → K) {cfg : Cfg} {r : Rand K} (hv : Valid cfg r) :
    ((worker nvi cfg r .empty).failed ≠ none ∧ (worker nvi cfg r .empty).log = [] ∧ ¬ Healthy cfg r) ∨
    ((worker nvi cfg r .empty).failed = none ∧ Finished nvi (worker nvi cfg r .empty).disk ∧
      ∃ ws res, (worker nvi cfg r .empty).log = ws ++ [.res res] ∧
        (worker nvi cfg r .empty).disk = (ws ++ [.res res]).foldl Disk.write .empty ∧ (cfg.saveBefore = false → ws = [])) := by
  unfold worker
  have e1 : (Disk.empty : Disk K).res = none := rfl
  have e2 : (Disk.empty : Disk K).tmp = none := rfl
  rw [e1, e2]
  dsimp only
  cases hn : r.nodes with
  | none => exact .inl ⟨by simp, rfl, fun h => h.nodes hn⟩
  | some n =>
    dsimp only
    by_cases hany : (!(cfg.computeClustering || (cfg.computeStatic && r.adjacency))) = true
    · rw [if_pos hany]
      rw [Bool.not_eq_true', Bool.or_eq_false_iff] at hany
      refine .inr ⟨rfl, ⟨cfg, r, n, _, hv, hn, rfl, rfl, ?_, ?_⟩, [], _, rfl, rfl, fun _ => rfl⟩
      · rw [hany.1]; simp [Part]
      · rw [hany.2]; simp [Part]
    · rw [if_neg hany]
      cases hp : (if cfg.computeClustering then (unpack r.draws).map some else .ok none) with
      | error e =>
        refine .inl ⟨by simp, rfl, fun h => ?_⟩
        obtain ⟨p, hp'⟩ := unpack_ok h.draws
        rw [hp] at hp'
        exact (nomatch hp')
      | ok p =>
        dsimp only
        cases hq : (if (cfg.computeStatic && r.adjacency) = true then (unpack r.staticDraws).map some else .ok none) with
        | error e =>
          refine .inl ⟨by simp, rfl, fun h => ?_⟩
          obtain ⟨q, hq'⟩ := unpack_ok (wanted := cfg.computeStatic && r.adjacency) (draws := r.staticDraws) (by
            intro hb
            rw [Bool.and_eq_true] at hb
            exact h.staticDraws hb.1 hb.2)
          rw [hq] at hq'
          exact (nomatch hq')
        | ok q =>
          dsimp only
          refine .inr ⟨rfl, ⟨cfg, r, n, ⟨cfg.numRepeat, _, _⟩, hv, hn, ?_, rfl, part_of hv.draws hv.choice hp,
            part_of hv.staticDraws hv.staticChoice hq⟩, _, _, rfl, rfl, ?_⟩
          · rw [List.foldl_append]; rfl
          · intro hs
            rw [hs]
            cases p <;> rfl

/-- **C51**.  If no run saves intermediate clusterings, the first run that is neither killed nor fails in the
computations leaves a complete result, whatever runs were killed before; if there is one already, it is kept. -/
theorem C51_resumed_partial (nvi : Clusters → Clusters → Nat → K) {d : Disk K}
    (hd : Crashes nvi (fun cfg => cfg.saveBefore = false) d) {cfg : Cfg} {r : Rand K} (hv : Valid cfg r) (hh : Healthy cfg r) :
    (worker nvi cfg r d).failed = none ∧ Finished nvi (worker nvi cfg r d).disk := by
  have key : d = .empty ∨ Finished nvi d := by
    induction hd with
    | start => exact .inl rfl
    | @run d cfg r ws _ ha hv hws ih =>
      rcases ih with rfl | ih
      · rcases worker_fresh nvi hv with ⟨-, h2, -⟩ | ⟨-, h2, us, res, h3, h4, h5⟩
        · rw [h2] at hws
          rw [List.prefix_nil.1 hws]
          exact .inl rfl
        · have h5 := h5 ha
          subst h5
          rw [List.nil_append] at h3 h4
          rw [h3] at hws
          rw [h4] at h2
          cases ws with
          | nil => exact .inl rfl
          | cons w ws =>
            obtain ⟨h6, h7⟩ := List.cons_prefix_cons.1 hws
            rw [List.prefix_nil.1 h7, h6]
            exact .inr h2
      · right
        obtain ⟨cfg', r', n, res, a1, a2, a3, a4⟩ := ih
        have : (worker nvi cfg r d).log = [] := by
          unfold worker
          rw [a3]
        rw [this] at hws
        rw [List.prefix_nil.1 hws]
        exact ⟨cfg', r', n, res, a1, a2, a3, a4⟩
  rcases key with rfl | key
  · rcases worker_fresh nvi hv with ⟨-, -, h3⟩ | ⟨h1, h2, -⟩
    · exact absurd hh h3
    · exact ⟨h1, h2⟩
  · obtain ⟨cfg', r', n, res, a1, a2, a3, a4⟩ := key
    have : worker nvi cfg r d = ⟨d, [], none⟩ := by
      unfold worker
      rw [a3]
    rw [this]
    exact ⟨rfl, cfg', r', n, res, a1, a2, a3, a4⟩

/-- **C51**, also with intermediate clusterings: a run on an empty disk that is not killed leaves a complete
result. -/
theorem C51_first_run (nvi : Clusters → Clusters → Nat → K) {cfg : Cfg} {r : Rand K} (hv : Valid cfg r) (hh : Healthy cfg r) :
    (worker nvi cfg r .empty).failed = none ∧ Finished nvi (worker nvi cfg r .empty).disk := by
  rcases worker_fresh nvi hv with ⟨-, -, h3⟩ | ⟨h1, h2, -⟩
  · exact absurd hh h3
  · exact ⟨h1, h2⟩

/-- The disk after runs with the given arguments and random numbers, none of them killed. -/
def runs (nvi : Clusters → Clusters → Nat → K) (history : List (Cfg × Rand K)) (d : Disk K) : Disk K :=
  history.foldl (fun d e => (worker nvi e.1 e.2 d).disk) d

/-- **C51**.  A result is never overwritten by later runs. -/
theorem C51_kept (nvi : Clusters → Clusters → Nat → K) (history : List (Cfg × Rand K)) {d : Disk K} (h : d.res ≠ none) :
    runs nvi history d = d := by
  induction history with
  | nil => rfl
  | cons e history ih =>
    have : (worker nvi e.1 e.2 d).disk = d := by
      unfold worker
      cases hr : d.res with
      | none => exact absurd hr h
      | some f => rfl
    unfold runs
    rw [List.foldl_cons, this]
    exact ih

/-- **C51** is false if a run was killed after it saved, or while it saved, the intermediate clusterings:
no sequence of later runs, with any arguments that ask for clusterings and any random numbers, writes a
result; each of them ends with an exception. -/
theorem C51_violated (nvi : Clusters → Clusters → Nat → K) {d : Disk K} (hr : d.res = none) (ht : d.tmp ≠ none)
    (history : List (Cfg × Rand K))
    (hc : ∀ e ∈ history, e.1.computeClustering = true ∨ (e.1.computeStatic = true ∧ e.2.adjacency = true)) :
    runs nvi history d = d ∧ ∀ e ∈ history, (worker nvi e.1 e.2 (runs nvi history d)).failed ≠ none := by
  have step : ∀ (cfg : Cfg) (r : Rand K), cfg.computeClustering = true ∨ (cfg.computeStatic = true ∧ r.adjacency = true) →
      (worker nvi cfg r d).disk = d ∧ (worker nvi cfg r d).failed ≠ none := by
    intro cfg r h
    unfold worker
    rw [hr]
    dsimp only
    cases r.nodes with
    | none => exact ⟨rfl, by simp⟩
    | some n =>
      dsimp only
      rw [if_neg (by
        rcases h with h | ⟨h1, h2⟩
        · simp [h]
        · simp [h1, h2])]
      match d.tmp, ht with
      | none, ht => exact absurd rfl ht
      | some .torn, _ => exact ⟨rfl, by simp⟩
      | some (.whole v), _ =>
        dsimp only
        split
        · cases unpack r.staticDraws with
          | error e => exact ⟨rfl, by simp⟩
          | ok p => exact ⟨rfl, by simp⟩
        · exact ⟨rfl, by simp⟩
  have hd : runs nvi history d = d := by
    induction history with
    | nil => rfl
    | cons e history ih =>
      unfold runs
      rw [List.foldl_cons, (step e.1 e.2 (hc e List.mem_cons_self)).1]
      exact ih fun e' he' => hc e' (List.mem_cons_of_mem _ he')
  refine ⟨hd, fun e he => ?_⟩
  rw [hd]
  exact (step e.1 e.2 (hc e he)).2

/-! ## Example -/

/-- Two repetitions that find the same clustering, and a third with larger stability. -/
def exDraws : List (Draw ℚ) :=
  [⟨[{0, 1}, {2}], 1/2, 7⟩, ⟨[{2}, {1, 0}], 1/2, 8⟩, ⟨[{0}, {1, 2}], 2/3, 9⟩]

def exRand : Rand ℚ := ⟨some 3, false, some exDraws, [2, 0, 1], none, [2, 0, 1]⟩

def exCfg (saveBefore : Bool) : Cfg := ⟨true, false, saveBefore, 3, none⟩

/-- Stands for the variation of information. -/
def exNvi : Clusters → Clusters → Nat → ℚ := fun c c' n => (c.countP fun s => decide (s ∉ c')) / (n : ℚ)

theorem ex_valid (b : Bool) : Valid (exCfg b) exRand := by
  refine ⟨?_, ?_, ?_, ?_⟩
  · intro l hl
    injection hl with hl
    subst hl; rfl
  · intro l hl
    exact (nomatch hl)
  · cases b <;> exact ⟨by decide, by decide +kernel, by decide +kernel⟩
  · cases b <;> exact ⟨by decide, by decide +kernel, by decide +kernel⟩

theorem ex_healthy (b : Bool) : Healthy (exCfg b) exRand :=
  ⟨by simp [exRand], fun _ => ⟨by simp [exRand], by simp [exRand, exDraws]⟩, fun h => by simp [exCfg] at h⟩

example : Finished exNvi (worker exNvi (exCfg false) exRand .empty).disk :=
  (C51_resumed_partial exNvi .start (ex_valid false) (ex_healthy false)).2

/-- The best clustering of the example, and the numbers saved. -/
example : (bestOf (⟨[{0, 1}, {2}], 1/2, 7⟩ : Draw ℚ) exDraws.tail) = ([{0}, {1, 2}], 2/3) := by decide +kernel

example : pick [2, 0] (pairs [10, 20, 30]) = [(10, 20), (20, 30)] := by decide +kernel

/-- **C51** is false: an example of a run that is killed after its first write. -/
theorem C51_reached_violated : ∃ d : Disk ℚ, Crashes exNvi (fun _ => True) d ∧ Valid (exCfg true) exRand ∧
    Healthy (exCfg true) exRand ∧
    ∀ m, (runs exNvi (List.replicate m (exCfg true, exRand)) d).res = none := by
  obtain ⟨w, ws, hlog⟩ : ∃ (v : Tmp ℚ) (ws : List (Write ℚ)),
    (worker exNvi (exCfg true) exRand .empty).log = .tmp v :: ws := ⟨_, _, rfl⟩
  refine ⟨[Write.tmp w].foldl Disk.write .empty, .run (exCfg true) exRand _ .start trivial (ex_valid true) ?_,
    ex_valid true, ex_healthy true, fun m => ?_⟩
  · rw [hlog]
    exact ⟨ws, rfl⟩
  · rw [(C51_violated exNvi (d := [Write.tmp w].foldl Disk.write .empty) rfl (by simp [Disk.write]) _ (by
      intro e he
      rw [List.eq_of_mem_replicate he]
      exact .inl rfl)).1]
    rfl

end Verif.Scripts.Cluster
