import Verif.Symmetry.Spec
import Verif.Local.Props
import Verif.Rename.Props
import Verif.Optimum.Props
import Verif.Parties.Props

/-!
# Labels that can be exchanged: property C152
-/

set_option linter.dupNamespace false
set_option linter.unusedSectionVars false

namespace Verif.Symmetry

open Verif.TempNet Verif.Trans Verif.Flow Verif.EndToEnd Verif.Average Verif.Groups Verif.Noise Verif.Causal Verif.Local Verif.Rename Finset

variable {L : Type} [LinearOrder L] {evs : List (Event L ℝ)} {nodes : List L} {f : L → L}

/-- The new number of a number. -/
def shift (nodes : List L) (f : L → L) (i : Nat) : Nat := if h : i < nodes.length then nodes.idxOf (f nodes[i]) else i

theorem touch_of (h : GoodContacts evs) (hn : NodesOf evs nodes) {x : L} (hx : x ∈ nodes) : ∃ u y, Touch evs u x y := by
  obtain ⟨e, he, rfl | rfl⟩ := (hn.2 x).1 hx
  · exact ⟨e.start, e.tgt, e, he, le_rfl, h.lasting e he, .inl ⟨rfl, rfl⟩⟩
  · exact ⟨e.start, e.src, e, he, le_rfl, h.lasting e he, .inr ⟨rfl, rfl⟩⟩

theorem image_mem (h : GoodContacts evs) (hn : NodesOf evs nodes) (hf : SameUnder evs f) {x : L} (hx : x ∈ nodes) : f x ∈ nodes := by
  obtain ⟨u, y, hu⟩ := touch_of h hn hx
  exact touch_mem_left hn ((hf.2 u x y).2 hu)

theorem shift_get (h : GoodContacts evs) (hn : NodesOf evs nodes) (hf : SameUnder evs f) {i : Nat} (hi : i < nodes.length) :
    ∃ hs : shift nodes f i < nodes.length, nodes[shift nodes f i] = f nodes[i] := by
  have hmem := image_mem h hn hf (List.getElem_mem hi)
  have hlt : shift nodes f i < nodes.length := by
    unfold shift
    rw [dif_pos hi]
    exact List.idxOf_lt_length_iff.2 hmem
  refine ⟨hlt, ?_⟩
  have : shift nodes f i = nodes.idxOf (f nodes[i]) := by
    unfold shift
    rw [dif_pos hi]
  simp only [this]
  exact List.getElem_idxOf (List.idxOf_lt_length_iff.2 hmem)

theorem shift_perm (h : GoodContacts evs) (hn : NodesOf evs nodes) (hf : SameUnder evs f) : PermBelow nodes.length (shift nodes f) := by
  refine ⟨fun i hi => (shift_get h hn hf hi).1, fun i j hi hj he => ?_⟩
  obtain ⟨h1, e1⟩ := shift_get h hn hf hi
  obtain ⟨h2, e2⟩ := shift_get h hn hf hj
  have : f nodes[i] = f nodes[j] := by
    rw [← e1, ← e2]
    simp only [he]
  exact (nodup_of hn).getElem_inj_iff.1 (hf.1 this)

theorem contact_shift (h : GoodContacts evs) (hn : NodesOf evs nodes) (hf : SameUnder evs f) (u : ℝ) {i j : Nat}
    (hi : i < nodes.length) (hj : j < nodes.length) :
    InContact evs nodes u (shift nodes f i) (shift nodes f j) ↔ InContact evs nodes u i j := by
  obtain ⟨h1, e1⟩ := shift_get h hn hf hi
  obtain ⟨h2, e2⟩ := shift_get h hn hf hj
  rw [touch_contact h1 h2, touch_contact hi hj, e1, e2, hf.2]

theorem laplacian_shift (h : GoodContacts evs) (hn : NodesOf evs nodes) (hf : SameUnder evs f) (u : ℝ) :
    Renumbered nodes.length (shift nodes f) (walkLaplacian nodes.length (InContact evs nodes u) : Mat ℝ)
      (walkLaplacian nodes.length (InContact evs nodes u)) := by
  classical
  have hπ := shift_perm h hn hf
  have hdeg : ∀ i < nodes.length, degree nodes.length (InContact evs nodes u) (shift nodes f i) =
      degree nodes.length (InContact evs nodes u) i := by
    intro i hi
    unfold degree
    rw [Finset.card_filter, Finset.card_filter, hπ.sum]
    refine sum_congr rfl fun j hj => ?_
    simp only [contact_shift h hn hf u hi (mem_range.1 hj)]
  intro i j hi hj
  unfold walkLaplacian
  rw [hdeg i hi]
  simp only [contact_shift h hn hf u hi hj, hπ.eq_iff hi hj]

theorem walkStep_shift (h : GoodContacts evs) (hn : NodesOf evs nodes) (hf : SameUnder evs f) (times : List ℝ) (scale : ℝ) (k : Nat) :
    Renumbered nodes.length (shift nodes f) (walkStep evs nodes times scale k) (walkStep evs nodes times scale k) := by
  unfold walkStep
  refine C122_expm (shift_perm h hn hf) _ _ fun i j hi hj => ?_
  rw [laplacian_shift h hn hf _ i j hi hj]

theorem prod_shift {n : Nat} {π : Nat → Nat} (hπ : PermBelow n π) {l : List (Mat ℝ)} (hl : ∀ A ∈ l, Renumbered n π A A) :
    Renumbered n π (prod n l) (prod n l) := by
  induction l with
  | nil => exact eye_ren hπ
  | cons A l ih => exact mul_ren hπ (hl A (by simp)) (ih fun B hB => hl B (by simp [hB]))

theorem covAt_shift {n : Nat} {π : Nat → Nat} (hπ : PermBelow n π) {T : Mat ℝ} (hT : Renumbered n π T T) (c : ℝ) :
    Renumbered n π (covAt n (fun _ => c) T) (covAt n (fun _ => c) T) := by
  have hafter : ∀ k < n, after n (fun _ => c) T (π k) = after n (fun _ => c) T k := by
    intro k hk
    unfold after
    rw [hπ.sum]
    exact sum_congr rfl fun a ha => by rw [hT a k (mem_range.1 ha) hk]
  intro i j hi hj
  unfold covAt
  rw [hπ.sum]
  congr 1
  refine sum_congr rfl fun k hk => ?_
  have hk := mem_range.1 hk
  rw [hafter k hk, hT i k hi hk, hT j k hj hk]

theorem walkOver_shift (h : GoodContacts evs) (hn : NodesOf evs nodes) (hf : SameUnder evs f) (times : List ℝ) (scale : ℝ) (rev : Bool) :
    Renumbered nodes.length (shift nodes f) (walkOver evs nodes times scale rev) (walkOver evs nodes times scale rev) := by
  refine prod_shift (shift_perm h hn hf) fun A hA => ?_
  have hA' : A ∈ (List.range (times.length - 1)).map (walkStep evs nodes times scale) := by
    cases rev
    · simpa using hA
    · simpa using hA
  obtain ⟨k, -, rfl⟩ := List.mem_map.1 hA'
  exact walkStep_shift h hn hf times scale k

theorem flowCov_shift (h : GoodContacts evs) (hn : NodesOf evs nodes) (hf : SameUnder evs f) {times : List ℝ} (ht : TimesOf evs times)
    (scale : ℝ) (rev : Bool) :
    Renumbered nodes.length (shift nodes f) (flowCov evs nodes times scale rev) (flowCov evs nodes times scale rev) := by
  have hπ := shift_perm h hn hf
  have h2 := times_len h ht
  intro i j hi hj
  unfold flowCov meanCov
  congr 2
  refine List.map_congr_left fun e he => ?_
  obtain ⟨-, l, hl, e2⟩ := mem_flowSteps ht.1 le_rfl (by simp; omega) he
  rw [e2]
  congr 1
  refine covAt_shift hπ (prod_shift hπ fun A hA => ?_) _ i j hi hj
  obtain ⟨k, -, rfl⟩ := List.mem_map.1 (hl A hA)
  exact walkStep_shift h hn hf times scale k

theorem shift_place (hn : NodesOf evs nodes) {x : L} (hx : x ∈ nodes) : shift nodes f (place nodes x) = place nodes (f x) := by
  obtain ⟨i, hi, rfl⟩ := List.getElem_of_mem hx
  unfold place
  rw [List.Nodup.idxOf_getElem (nodup_of hn)]
  unfold shift
  rw [dif_pos hi]

theorem place_lt {x : L} (hx : x ∈ nodes) : place nodes x < nodes.length := List.idxOf_lt_length_iff.2 hx

/-- **C152**.  If the contacts stay the same under a renaming of the labels, the computed probabilities and covariances do: the way
from `f x` to `f y` has the probability of the way from `x` to `y`, and likewise for the covariances; forward and backward in time, for
every waiting time, and whatever the order of the table. -/
theorem C152_symmetry (h : GoodContacts evs) (hn : NodesOf evs nodes) (hf : SameUnder evs f) (sf : Nat → Bool) {scale : ℝ} (hs : 0 < scale)
    (reverse : Bool) :
    ∃ T S, computedTransition sf evs scale reverse = some T ∧ computedFlow sf evs scale reverse = some S ∧
      ∀ x ∈ nodes, ∀ y ∈ nodes, f x ∈ nodes ∧ f y ∈ nodes ∧
        T (place nodes (f x)) (place nodes (f y)) = T (place nodes x) (place nodes y) ∧
        S (place nodes (f x)) (place nodes (f y)) = S (place nodes x) (place nodes y) := by
  obtain ⟨T, hT, e⟩ := computedTransition_spec h sf hs reverse
  obtain ⟨S, hS, e'⟩ := computedFlow_spec h sf hs reverse
  rw [← nodes_unique hn] at e e'
  have ht := timesOf_spec evs
  refine ⟨T, S, hT, hS, fun x hx y hy => ?_⟩
  have hx' := image_mem h hn hf hx
  have hy' := image_mem h hn hf hy
  refine ⟨hx', hy', ?_, ?_⟩
  · rw [e _ (place_lt hx') _ (place_lt hy'), e _ (place_lt hx) _ (place_lt hy), ← shift_place hn hx, ← shift_place hn hy]
    exact walkOver_shift h hn hf _ scale reverse _ _ (place_lt hx) (place_lt hy)
  · rw [e' _ (place_lt hx') _ (place_lt hy'), e' _ (place_lt hx) _ (place_lt hy), ← shift_place hn hx, ← shift_place hn hy]
    exact flowCov_shift h hn hf ht scale reverse _ _ (place_lt hx) (place_lt hy)

theorem touch_symm {u : ℝ} {x y : L} : Touch evs u x y ↔ Touch evs u y x := by
  unfold Touch
  exact exists_congr fun e => and_congr_right fun _ => and_congr_right fun _ => and_congr_right fun _ => or_comm

theorem swap_same {x y : L} (h : GoodContacts evs) (ht : Twins evs x y) : SameUnder evs (Equiv.swap x y) := by
  have hself : ∀ u a, ¬ Touch evs u a a := by
    rintro u a ⟨e, he, -, -, ⟨h1, h2⟩ | ⟨h1, h2⟩⟩ <;> exact h.different e he (h1.trans h2.symm)
  have hone : ∀ u a, a ≠ x → a ≠ y → (Touch evs u a y ↔ Touch evs u a x) := fun u a h1 h2 => by
    rw [touch_symm, touch_symm (y := x)]
    exact (ht u a h1 h2).symm
  refine ⟨(Equiv.swap x y).injective, fun u a b => ?_⟩
  by_cases hxy : x = y
  · subst hxy
    rw [Equiv.swap_self]
    exact Iff.rfl
  by_cases ha : a = x
  · subst ha
    rw [Equiv.swap_apply_left]
    by_cases hb : b = a
    · subst hb
      rw [Equiv.swap_apply_left]
      exact iff_of_false (hself u _) (hself u _)
    · by_cases hb' : b = y
      · subst hb'
        rw [Equiv.swap_apply_right]
        exact touch_symm
      · rw [Equiv.swap_apply_of_ne_of_ne hb hb']
        exact (ht u b hb hb').symm
  · by_cases ha' : a = y
    · subst ha'
      rw [Equiv.swap_apply_right]
      by_cases hb : b = x
      · subst hb
        rw [Equiv.swap_apply_left]
        exact touch_symm
      · by_cases hb' : b = a
        · subst hb'
          rw [Equiv.swap_apply_right]
          exact iff_of_false (hself u _) (hself u _)
        · rw [Equiv.swap_apply_of_ne_of_ne hb hb']
          exact ht u b hb hb'
    · rw [Equiv.swap_apply_of_ne_of_ne ha ha']
      by_cases hb : b = x
      · subst hb
        rw [Equiv.swap_apply_left]
        exact hone u a ha ha'
      · by_cases hb' : b = y
        · subst hb'
          rw [Equiv.swap_apply_right]
          exact (hone u a ha ha').symm
        · rw [Equiv.swap_apply_of_ne_of_ne hb hb']

/-- **C152**, labels with the same contacts.  Two labels that are at all times in contact with the same others have the same
probabilities and covariances with these, and with themselves and each other. -/
theorem C152_twins (h : GoodContacts evs) (hn : NodesOf evs nodes) {x y : L} (hx : x ∈ nodes) (hy : y ∈ nodes) (hxy : Twins evs x y)
    (sf : Nat → Bool) {scale : ℝ} (hs : 0 < scale) (reverse : Bool) :
    ∃ T S, computedTransition sf evs scale reverse = some T ∧ computedFlow sf evs scale reverse = some S ∧ ∀ M, M = T ∨ M = S →
      M (place nodes x) (place nodes x) = M (place nodes y) (place nodes y) ∧
      M (place nodes x) (place nodes y) = M (place nodes y) (place nodes x) ∧
      ∀ z ∈ nodes, z ≠ x → z ≠ y →
        M (place nodes x) (place nodes z) = M (place nodes y) (place nodes z) ∧
        M (place nodes z) (place nodes x) = M (place nodes z) (place nodes y) := by
  obtain ⟨T, S, hT, hS, hsym⟩ := C152_symmetry h hn (swap_same h hxy) sf hs reverse
  refine ⟨T, S, hT, hS, fun M hM => ?_⟩
  have key : ∀ a ∈ nodes, ∀ b ∈ nodes, M (place nodes (Equiv.swap x y a)) (place nodes (Equiv.swap x y b)) =
      M (place nodes a) (place nodes b) := by
    intro a ha b hb
    obtain ⟨-, -, h1, h2⟩ := hsym a ha b hb
    rcases hM with rfl | rfl
    · exact h1
    · exact h2
  refine ⟨?_, ?_, fun z hz h1 h2 => ⟨?_, ?_⟩⟩
  · have := key y hy y hy
    rwa [Equiv.swap_apply_right] at this
  · have := key y hy x hx
    rwa [Equiv.swap_apply_right, Equiv.swap_apply_left] at this
  · have := key y hy z hz
    rwa [Equiv.swap_apply_right, Equiv.swap_apply_of_ne_of_ne h1 h2] at this
  · have := key z hz y hy
    rwa [Equiv.swap_apply_right, Equiv.swap_apply_of_ne_of_ne h1 h2] at this

/-- **C152**, stability.  If the contacts stay the same under a renaming of the labels, so does the flow stability of every division of the
labels into clusters. -/
theorem C152_stability (h : GoodContacts evs) (hn : NodesOf evs nodes) (hf : SameUnder evs f) (sf : Nat → Bool) {scale : ℝ} (hs : 0 < scale)
    (reverse : Bool) :
    ∃ S, computedFlow sf evs scale reverse = some S ∧ ∀ cl : List (Finset Nat), (∀ c ∈ cl, ∀ i ∈ c, i < nodes.length) →
      within nodes.length S (moved nodes f cl) = within nodes.length S cl := by
  classical
  obtain ⟨S, hS, e'⟩ := computedFlow_spec h sf hs reverse
  rw [← nodes_unique hn] at e'
  have ht := timesOf_spec evs
  have hπ := shift_perm h hn hf
  refine ⟨S, hS, fun cl hcl => ?_⟩
  have hmem : ∀ c ∈ cl, ∀ i < nodes.length,
      (shift nodes f i ∈ c.biUnion (fun i => (nodes[i]?.map fun x => {place nodes (f x)}).getD ∅) ↔ i ∈ c) := by
    intro c hc i hi
    rw [Finset.mem_biUnion]
    constructor
    · rintro ⟨j, hj, hm⟩
      have hjn := hcl c hc j hj
      rw [List.getElem?_eq_getElem hjn, Option.map_some, Option.getD_some, Finset.mem_singleton] at hm
      have : shift nodes f j = place nodes (f nodes[j]) := by
        unfold shift place
        rw [dif_pos hjn]
      rw [← this] at hm
      rw [hπ.2 i j hi hjn hm]
      exact hj
    · intro hic
      refine ⟨i, hic, ?_⟩
      rw [List.getElem?_eq_getElem hi, Option.map_some, Option.getD_some, Finset.mem_singleton]
      unfold shift place
      rw [dif_pos hi]
  unfold within
  rw [hπ.sum]
  refine sum_congr rfl fun i hi => ?_
  rw [hπ.sum]
  refine sum_congr rfl fun j hj => ?_
  have hi := mem_range.1 hi
  have hj := mem_range.1 hj
  have hcond : (∃ c ∈ moved nodes f cl, shift nodes f i ∈ c ∧ shift nodes f j ∈ c) ↔ ∃ c ∈ cl, i ∈ c ∧ j ∈ c := by
    unfold moved
    constructor
    · rintro ⟨c', hc', h1, h2⟩
      obtain ⟨c, hc, rfl⟩ := List.mem_map.1 hc'
      exact ⟨c, hc, (hmem c hc i hi).1 h1, (hmem c hc j hj).1 h2⟩
    · rintro ⟨c, hc, h1, h2⟩
      exact ⟨_, List.mem_map.2 ⟨c, hc, rfl⟩, (hmem c hc i hi).2 h1, (hmem c hc j hj).2 h2⟩
  have hSij : S (shift nodes f i) (shift nodes f j) = S i j := by
    rw [e' _ (hπ.1 i hi) _ (hπ.1 j hj), e' i hi j hj]
    exact flowCov_shift h hn hf ht scale reverse i j hi hj
  simp only [hcond, hSij]

/-! ## The communities found -/

open Verif.Louvain Verif.Partition Verif.Optimum

/-- A walk on a ring of four nodes. -/
def ringT : Nat → Nat → ℚ := fun i j => if i = j then 2 / 5 else if i % 2 = j % 2 then 0 else 3 / 10

/-- **C153, violated.**  A walk on a ring of four nodes stays the same if all nodes are moved by one place, but the communities
found do not: nodes 1 and 2 are put together, nodes 0 and 1 are not. -/
theorem C153_ring_violated :
    (∀ i < 4, ∀ j < 4, ringT ((i + 1) % 4) ((j + 1) % 4) = ringT i j) ∧ (∀ i < 4, rowSum 4 ringT i = 1) ∧ FreshDefault (station 4 ringT) ∧
      ∃ k p, findLouvain exSched exPar (station 4 ringT) = .ok (k, p) ∧ Together p.clusters 1 2 ∧ ¬ Together p.clusters 0 1 := by
  refine ⟨by decide +kernel, by decide +kernel, station_fresh (by decide +kernel), ?_⟩
  obtain ⟨k, p, h1, h2⟩ := found_iff (show found (findLouvain exSched exPar (station 4 ringT)) = some [{1, 2}, {0, 3}] by decide +kernel)
  refine ⟨k, p, h1, ?_, ?_⟩
  · rw [h2, together_iff]
    exact ⟨{1, 2}, by simp, by simp, by simp⟩
  · rw [h2, together_iff]
    simp

theorem moved_eq {nodes : List L} {f : L → L} {cl : List (Finset Nat)} (hcl : ∀ c ∈ cl, ∀ i ∈ c, i < nodes.length) :
    moved nodes f cl = renameClusters (shift nodes f) cl := by
  unfold moved renameClusters
  refine List.map_congr_left fun c hc => ?_
  ext v
  rw [Finset.mem_biUnion, Finset.mem_image]
  refine exists_congr fun i => and_congr_right fun hi => ?_
  have hin := hcl c hc i hi
  rw [List.getElem?_eq_getElem hin, Option.map_some, Option.getD_some, Finset.mem_singleton]
  unfold shift place
  rw [dif_pos hin]
  exact eq_comm

/-- **C153, partial.**  If the contacts stay the same under a renaming of the labels and no other division of the labels has the flow
stability of a division, be it found by the search or not, this division puts `f x` and `f y` together if and only if it puts `x` and
`y` together. -/
theorem C153_unique_partial (h : GoodContacts evs) (hn : NodesOf evs nodes) (hf : SameUnder evs f) (sf : Nat → Bool) {scale : ℝ}
    (hs : 0 < scale) (reverse : Bool) :
    ∃ S, computedFlow sf evs scale reverse = some S ∧ ∀ cl : List (Finset Nat), IsPartition nodes.length cl →
      (∀ cl', IsPartition nodes.length cl' → within nodes.length S cl' = within nodes.length S cl →
        ∀ i j, Together cl' i j ↔ Together cl i j) →
      ∀ x ∈ nodes, ∀ y ∈ nodes,
        (Together cl (place nodes (f x)) (place nodes (f y)) ↔ Together cl (place nodes x) (place nodes y)) := by
  obtain ⟨S, hS, hst⟩ := C152_stability h hn hf sf hs reverse
  refine ⟨S, hS, fun cl hcl huniq x hx y hy => ?_⟩
  have hb : ∀ c ∈ cl, ∀ i ∈ c, i < nodes.length := fun c hc i hi => IsPartition.lt hcl hc hi
  have hπ := shift_perm h hn hf
  have heq := moved_eq (f := f) hb
  rw [← huniq (moved nodes f cl) (by rw [heq]; exact isPartition_rename hπ hcl) (hst cl hb), heq, ← shift_place hn hx, ← shift_place hn hy]
  unfold Together
  simp only [at_rename hπ hb (place_lt hx), at_rename hπ hb (place_lt hy)]

/-- A division that puts together exactly the nodes with positive covariances is the only one with its stability. -/
theorem unique_of_signs {n : Nat} {S : Mat ℝ} {cl : List (Finset Nat)} (hcl : IsPartition n cl)
    (hpos : ∀ i < n, ∀ j < n, i ≠ j → Together cl i j → 0 < S i j) (hneg : ∀ i < n, ∀ j < n, i ≠ j → ¬ Together cl i j → S i j < 0) :
    ∀ cl', IsPartition n cl' → within n S cl' = within n S cl → ∀ i j, Together cl' i j ↔ Together cl i j := by
  classical
  intro cl' hcl' he
  have hd : ∑ i ∈ range n, ∑ j ∈ range n, ((if Together cl i j then S i j else 0) - (if Together cl' i j then S i j else 0)) = 0 := by
    simp only [sum_sub_distrib]
    unfold within at he
    simp only [together_iff]
    rw [sub_eq_zero]
    convert he.symm
  have hnn : ∀ i ∈ range n, ∀ j ∈ range n,
      0 ≤ (if Together cl i j then S i j else 0) - (if Together cl' i j then S i j else 0) := by
    intro i hi j hj
    have hi := mem_range.1 hi
    have hj := mem_range.1 hj
    by_cases hij : i = j
    · subst hij
      rw [if_pos (together_refl hcl hi), if_pos (together_refl hcl' hi), sub_self]
    · by_cases h1 : Together cl i j
      · have := hpos i hi j hj hij h1
        rw [if_pos h1]
        split_ifs <;> linarith
      · have := hneg i hi j hj hij h1
        rw [if_neg h1]
        split_ifs <;> linarith
  have hz : ∀ i < n, ∀ j < n, (if Together cl i j then S i j else 0) - (if Together cl' i j then S i j else 0) = 0 := by
    intro i hi j hj
    have h1 := (sum_eq_zero_iff_of_nonneg (fun i hi => sum_nonneg (hnn i hi))).1 hd i (mem_range.2 hi)
    exact (sum_eq_zero_iff_of_nonneg (hnn i (mem_range.2 hi))).1 h1 j (mem_range.2 hj)
  intro i j
  by_cases hi : i < n
  · by_cases hj : j < n
    · by_cases hij : i = j
      · subst hij
        exact iff_of_true (together_refl hcl' hi) (together_refl hcl hi)
      · have h0 := hz i hi j hj
        by_cases h1 : Together cl i j
        · have := hpos i hi j hj hij h1
          rw [if_pos h1] at h0
          by_cases h2 : Together cl' i j
          · exact iff_of_true h2 h1
          · rw [if_neg h2] at h0
            linarith
        · have := hneg i hi j hj hij h1
          rw [if_neg h1] at h0
          by_cases h2 : Together cl' i j
          · rw [if_pos h2] at h0
            linarith
          · exact iff_of_false h2 h1
    · exact iff_of_false (fun hh => hj (together_lt hcl' (together_symm hh))) (fun hh => hj (together_lt hcl (together_symm hh)))
  · exact iff_of_false (fun hh => hi (together_lt hcl' hh)) (fun hh => hi (together_lt hcl hh))

open Verif.Parties Verif.Clique in
/-- The hypothesis on the division is met for the two groups of the table of contacts of C151. -/
example (h : GoodContacts tables) (hn : NodesOf tables [0, 1, 2, 3, 4]) (ht : TimesOf tables [0, 10])
    (hall : AllMeet tables [0, 1, 2, 3, 4] seats) (sf : Nat → Bool) (rev : Bool) (hcl : IsPartition 5 [{0, 1}, {2, 3, 4}]) :
    ∃ S, computedFlow sf tables 1 rev = some S ∧ ∀ cl', IsPartition 5 cl' → within 5 S cl' = within 5 S [{0, 1}, {2, 3, 4}] →
      ∀ i j, Together cl' i j ↔ Together [{0, 1}, {2, 3, 4}] i j := by
  have m0 : ({0, 1}, Set.Ico 0 10) ∈ seats := by simp [seats]
  have m1 : ({2, 3, 4}, Set.Ico 0 10) ∈ seats := by simp [seats]
  obtain ⟨S, hS, h0⟩ := C151_covariance h hn ht sf one_pos rev (hall.members _ m0) (hall.sizes _ m0) (hall.meets _ m0)
  obtain ⟨S', hS', h1⟩ := C151_covariance h hn ht sf one_pos rev (hall.members _ m1) (hall.sizes _ m1) (hall.meets _ m1)
  obtain rfl : S = S' := Option.some.inj (hS.symm.trans hS')
  have k0 : ({0, 1} : Finset Nat).card = 2 := rfl
  have k1 : ({2, 3, 4} : Finset Nat).card = 3 := rfl
  simp only [k0, k1, tables_share] at h0 h1
  have b0 := (exp_bounds (show (0 : ℝ) < 40 by norm_num)).1
  have b1 := (exp_bounds (show (0 : ℝ) < 30 by norm_num)).1
  have g : ∀ i < 5, ([0, 1, 2, 3, 4] : List Nat)[i]? = some i := by decide
  refine ⟨S, hS, unique_of_signs hcl ?_ ?_⟩
  · intro i hi j hj hij ht
    rw [together_iff] at ht
    obtain ⟨c, hc, hic, hjc⟩ := ht
    simp only [List.mem_cons, List.not_mem_nil, or_false] at hc
    rcases hc with rfl | rfl
    · rw [(h0 i j i j (g i hi) (g j hj) hic).1 hjc]
      unfold mixed
      rw [if_neg hij]
      norm_num at b0 ⊢
      linarith
    · rw [(h1 i j i j (g i hi) (g j hj) hic).1 hjc]
      unfold mixed
      rw [if_neg hij]
      norm_num at b1 ⊢
      linarith
  · intro i hi j hj hij ht
    rw [together_iff] at ht
    have hi' : i ∈ ({0, 1} : Finset Nat) ∨ i ∈ ({2, 3, 4} : Finset Nat) := by
      simp only [Finset.mem_insert, Finset.mem_singleton]; omega
    rcases hi' with hi' | hi'
    · rw [(h0 i j i j (g i hi) (g j hj) hi').2 fun hj' => ht ⟨_, by simp, hi', hj'⟩]
      norm_num
    · rw [(h1 i j i j (g i hi) (g j hj) hi').2 fun hj' => ht ⟨_, by simp, hi', hj'⟩]
      norm_num

/-! ## Example: a label that meets three others one after the other, of which two have the same contacts -/

/-- Labels 1 and 2 meet 0 from 0 to 1, label 3 meets 0 from 1 to 3. -/
def visit : List (Event Nat ℝ) := [⟨0, 1, 0, 1⟩, ⟨2, 0, 0, 1⟩, ⟨0, 3, 1, 3⟩]

example : GoodContacts visit ∧ NodesOf visit [0, 1, 2, 3] := by
  refine ⟨⟨by simp [visit], ?_, ?_, ?_⟩, by decide, fun l => ?_⟩
  · intro e he
    simp only [visit, List.mem_cons, List.not_mem_nil, or_false] at he
    rcases he with rfl | rfl | rfl <;> norm_num
  · intro e he
    simp only [visit, List.mem_cons, List.not_mem_nil, or_false] at he
    rcases he with rfl | rfl | rfl <;> norm_num
  · simp [visit]
  · simp only [visit, List.mem_cons, List.not_mem_nil, or_false, exists_eq_or_imp, exists_eq_left]
    omega

example : Twins visit 1 2 ∧ ¬ Twins visit 1 3 := by
  constructor
  · intro u z h1 h2
    simp only [Touch, visit, List.mem_cons, List.not_mem_nil, or_false, exists_eq_or_imp, exists_eq_left]
    by_cases c1 : (0 : ℝ) ≤ u <;> by_cases c2 : u < (1 : ℝ) <;> simp [c1, c2, eq_comm]
  · intro h
    have := (h 0 0 (by omega) (by omega)).1 ⟨⟨0, 1, 0, 1⟩, by simp [visit], le_rfl, by norm_num, .inr ⟨rfl, rfl⟩⟩
    simp only [Touch, visit, List.mem_cons, List.not_mem_nil, or_false, exists_eq_or_imp, exists_eq_left] at this
    norm_num at this

end Verif.Symmetry
