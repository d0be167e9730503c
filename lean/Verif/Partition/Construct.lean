import Verif.Partition.Lemmas

/-!
# C118: a partition groups the nodes as its argument does

network_clustering.py:70-122 (constructor), 175-192 (`get_num_clusters`).
-/

namespace Verif.Partition

/-- Specification: the key of a node under a constructor argument. Nodes with equal keys
belong together and clusters are ordered by key: without an argument every node is its
own key, in a list of sets it is the position of the set, in a dictionary the value. -/
def KeyOf (n : Nat) : Arg → Nat → Int → Prop
  | .none, v, k => v < n ∧ k = v
  | .clusterList cl, v, k => ∃ i : Nat, k = i ∧ ∃ c, cl[i]? = some c ∧ v ∈ c
  | .nodeDict items, v, k => (v, k) ∈ items
  | .both, _, _ => False

/-- Largest value of a dictionary, as a specification. -/
def IsMax (items : List (Nat × Int)) (m : Int) : Prop :=
  (∃ v, (v, m) ∈ items) ∧ ∀ v k, (v, k) ∈ items → k ≤ m

/-! ### helper lemmas -/

theorem newIndex_lt (cl : List (Finset Nat)) (i i' u : Nat) (hlt : i < i') (h : At cl i u) :
    newIndex cl i < newIndex cl i' := by
  induction cl generalizing i i' with
  | nil => exact absurd h (at_nil i u)
  | cons c cs ih =>
    cases i' with
    | zero => omega
    | succ i' =>
      cases i with
      | zero =>
        have hu := (at_zero ..).1 h
        rw [newIndex_succ, if_pos (Finset.card_pos.2 ⟨u, hu⟩)]
        simp [newIndex]
      | succ i =>
        have := ih i i' (by omega) ((at_succ ..).1 h)
        rw [newIndex_succ, newIndex_succ]
        omega

theorem newIndex_lt_iff (cl : List (Finset Nat)) {i j u v : Nat} (hi : At cl i u)
    (hj : At cl j v) : newIndex cl i < newIndex cl j ↔ i < j := by
  constructor
  · intro h
    by_contra hn
    rcases Nat.lt_or_eq_of_le (Nat.le_of_not_lt hn) with h' | h'
    · have := newIndex_lt cl j i v h' hj
      omega
    · subst h'
      omega
  · intro h
    exact newIndex_lt cl i j u h hi

theorem maxValue_mem {items : List (Nat × Int)} {m : Int} (h : maxValue items = some m) :
    ∃ v, (v, m) ∈ items := by
  induction items generalizing m with
  | nil => simp [maxValue] at h
  | cons a items ih =>
    obtain ⟨v, c⟩ := a
    simp only [maxValue] at h
    cases hm : maxValue items with
    | none =>
      rw [hm] at h
      simp only [Option.some.injEq] at h
      subst h
      exact ⟨v, List.mem_cons_self ..⟩
    | some m' =>
      rw [hm] at h
      simp only [Option.some.injEq] at h
      obtain ⟨w, hw⟩ := ih hm
      rcases le_total c m' with hle | hle
      · rw [max_eq_right hle] at h
        subst h
        exact ⟨w, List.mem_cons_of_mem _ hw⟩
      · rw [max_eq_left hle] at h
        subst h
        exact ⟨v, List.mem_cons_self ..⟩

theorem maxValue_iff {items : List (Nat × Int)} {m : Int} :
    maxValue items = some m ↔ IsMax items m := by
  constructor
  · intro h
    exact ⟨maxValue_mem h, fun v k hk => maxValue_ge h (v, k) hk⟩
  · rintro ⟨⟨v, hv⟩, hle⟩
    obtain ⟨m', hm'⟩ := maxValue_some (List.ne_nil_of_mem hv)
    obtain ⟨w, hw⟩ := maxValue_mem hm'
    have h1 := hle w m' hw
    have h2 := maxValue_ge hm' (v, m) hv
    rw [hm']
    simp only [Option.some.injEq]
    simp only at h2
    omega

theorem addItems_gen (items : List (Nat × Int)) (cl : List (Finset Nat))
    (hb : ∀ a ∈ items, -(cl.length : Int) ≤ a.2 ∧ a.2 < cl.length) :
    ∃ cl', addItems items cl = .ok cl' ∧ cl'.length = cl.length ∧
      ∀ i v, At cl' i v ↔ At cl i v ∨ ∃ c, (v, c) ∈ items ∧ pyIndex cl.length c = some i := by
  induction items generalizing cl with
  | nil => exact ⟨cl, rfl, rfl, by simp⟩
  | cons a items ih =>
    obtain ⟨v0, c0⟩ := a
    have hb0 := hb (v0, c0) (List.mem_cons_self ..)
    simp only at hb0
    obtain ⟨k, hk⟩ : ∃ k, pyIndex cl.length c0 = some k := by
      unfold pyIndex
      by_cases h0 : 0 ≤ c0
      · simp [h0, hb0.2]
      · simp [h0, hb0.1]
    have hklt : k < cl.length := by
      unfold pyIndex at hk
      by_cases h0 : 0 ≤ c0
      · simp only [h0, if_true, hb0.2, Option.some.injEq] at hk
        omega
      · simp only [h0, if_false, hb0.1, if_true, Option.some.injEq] at hk
        omega
    obtain ⟨cl', hok, hlen, hat⟩ := ih (cl.modify k (insert v0)) (by
      intro a ha
      rw [List.length_modify]
      exact hb a (List.mem_cons_of_mem _ ha))
    rw [List.length_modify] at hlen
    refine ⟨cl', ?_, hlen, fun i v => ?_⟩
    · rw [addItems, hk]
      exact hok
    · rw [hat i v, at_modify, List.length_modify]
      constructor
      · rintro (h | ⟨c, hc, hi⟩)
        · split at h
          · rename_i hik
            subst hik
            obtain ⟨c, hc, hv⟩ := h
            rcases Finset.mem_insert.1 hv with rfl | hv
            · exact Or.inr ⟨c0, List.mem_cons_self .., hk⟩
            · exact Or.inl ⟨c, hc, hv⟩
          · exact Or.inl h
        · exact Or.inr ⟨c, List.mem_cons_of_mem _ hc, hi⟩
      · rintro (⟨c, hc, hv⟩ | ⟨c, hc, hi⟩)
        · left
          split
          · exact ⟨c, hc, Finset.mem_insert_of_mem hv⟩
          · exact ⟨c, hc, hv⟩
        · rcases List.mem_cons.1 hc with heq | hc
          · left
            obtain ⟨rfl, rfl⟩ := Prod.mk.inj heq
            rw [hk] at hi
            simp only [Option.some.injEq] at hi
            subst hi
            rw [if_pos rfl]
            refine ⟨cl[k], List.getElem?_eq_getElem hklt, Finset.mem_insert_self ..⟩
          · exact Or.inr ⟨c, hc, hi⟩

theorem addItems_err (items : List (Nat × Int)) (cl : List (Finset Nat))
    (hb : ∃ a ∈ items, pyIndex cl.length a.2 = none) : addItems items cl = .error .indexError := by
  induction items generalizing cl with
  | nil => simp at hb
  | cons a items ih =>
    obtain ⟨v0, c0⟩ := a
    rw [addItems]
    cases hk : pyIndex cl.length c0 with
    | none => rfl
    | some k =>
      refine ih _ ?_
      obtain ⟨a, ha, h⟩ := hb
      rcases List.mem_cons.1 ha with rfl | ha
      · rw [hk] at h
        simp at h
      · exact ⟨a, ha, by rw [List.length_modify]; exact h⟩

/-- What the constructor does once the list of sets is there. -/
theorem fin_effect (n : Nat) (cl : List (Finset Nat)) (check : Bool) (hp : IsPartition n cl) :
    (if check then
        match checkIntegrity (removeEmpty { numNodes := n, clusters := cl, dict := dictOf cl }) with
        | .error e => .error e
        | .ok () => .ok (removeEmpty { numNodes := n, clusters := cl, dict := dictOf cl })
      else .ok (removeEmpty { numNodes := n, clusters := cl, dict := dictOf cl }) : Except Err Part)
      = .ok (removeEmpty { numNodes := n, clusters := cl, dict := dictOf cl }) := by
  have hc : Consistent (removeEmpty { numNodes := n, clusters := cl, dict := dictOf cl }) :=
    consistent_removeEmpty hp
  have hci := (checkIntegrity_iff
    (removeEmpty { numNodes := n, clusters := cl, dict := dictOf cl })).2
      ((isPartition_iff_card (fun v i hi => by
        by_contra hv
        exact (hc.1 v).2 (by omega) i hi)).1 hc.1)
  rw [hci]
  cases check <;> rfl

theorem dict_removed {n : Nat} {cl : List (Finset Nat)} (hd : Disj cl) {i v : Nat}
    (h : At cl i v) :
    (removeEmpty { numNodes := n, clusters := cl, dict := dictOf cl }).dict v
      = some ((newIndex cl i : Nat) : Int) :=
  (dictOf_spec _ (disj_filter hd) v _).2 ⟨_, rfl, at_filter cl i v h⟩

/-- A valid argument leads to a list of sets in which the position is the key. -/
theorem mk'_list (n : Nat) (arg : Arg) (check : Bool) (hv : ValidArg n arg) :
    ∃ cl, IsPartition n cl ∧ (∀ v k, KeyOf n arg v k ↔ ∃ i : Nat, k = i ∧ At cl i v) ∧
      mk' n arg check = .ok (removeEmpty { numNodes := n, clusters := cl, dict := dictOf cl }) := by
  cases arg with
  | none =>
    refine ⟨singletons n, isPartition_singletons n, fun v k => ?_,
      fin_effect n _ check (isPartition_singletons n)⟩
    have key : ∀ i v, At (singletons n) i v ↔ i < n ∧ v = i := by
      intro i v
      unfold At singletons
      by_cases hi : i < n <;> simp [hi]
    constructor
    · rintro ⟨h, rfl⟩
      exact ⟨v, rfl, (key v v).2 ⟨h, rfl⟩⟩
    · rintro ⟨i, rfl, h⟩
      obtain ⟨h, rfl⟩ := (key i v).1 h
      exact ⟨h, rfl⟩
  | clusterList cl => exact ⟨cl, hv, fun v k => Iff.rfl, fin_effect n _ check hv⟩
  | nodeDict items =>
    obtain ⟨hnd, hkeys, hpos, hne⟩ := hv
    obtain ⟨m, hm⟩ := maxValue_some hne
    obtain ⟨cl, hok, _, hat⟩ := addItems_spec items (List.replicate (m + 1).toNat ∅) (by
      intro a ha
      have h1 := maxValue_ge hm a ha
      have h2 := hpos a ha
      rw [List.length_replicate]
      omega)
    have hat' : ∀ i v, At cl i v ↔ (v, (i : Int)) ∈ items := by
      intro i v
      rw [hat i v]
      constructor
      · rintro (h | h)
        · unfold At at h
          obtain ⟨c, hc, hv⟩ := h
          rw [List.getElem?_replicate] at hc
          split at hc
          · simp at hc; subst hc; simp at hv
          · simp at hc
        · exact h
      · exact Or.inr
    have hpart := dict_isPartition n items hnd hkeys cl hat' hpos
    refine ⟨cl, hpart, fun v k => ?_, ?_⟩
    · constructor
      · intro h
        have := hpos _ h
        simp only at this
        obtain ⟨i, rfl⟩ := Int.eq_ofNat_of_zero_le this
        exact ⟨i, rfl, (hat' i v).2 h⟩
      · rintro ⟨i, rfl, h⟩
        exact (hat' i v).1 h
    · unfold mk'
      simp only [hm, hok]
      exact fin_effect n cl check hpart
  | both => exact absurd hv (by simp [ValidArg])

theorem filter_length_range (cl : List (Finset Nat)) :
    (cl.filter fun c => decide (0 < c.card)).length =
      ((Finset.range cl.length).filter fun i => (cl.getD i ∅).Nonempty).card := by
  induction cl using List.reverseRecOn with
  | nil => simp
  | append_singleton l a ih =>
    rw [List.filter_append, List.length_append, ih, List.length_append, List.length_singleton,
      Finset.range_add_one, Finset.filter_insert]
    have h1 : ((Finset.range l.length).filter fun i => ((l ++ [a]).getD i ∅).Nonempty) =
        (Finset.range l.length).filter fun i => (l.getD i ∅).Nonempty := by
      refine Finset.filter_congr fun i hi => ?_
      have := Finset.mem_range.1 hi
      simp only [List.getD_eq_getElem?_getD, List.getElem?_append_left this]
    have h2 : (l ++ [a]).getD l.length ∅ = a := by simp
    rw [h1, h2]
    by_cases ha : a.Nonempty
    · rw [if_pos ha, Finset.card_insert_of_notMem (by simp)]
      simp [ha]
    · rw [if_neg ha]
      rw [Finset.not_nonempty_iff_eq_empty] at ha
      subst ha
      simp

/-! ### theorems -/

/-- **C118.** For every argument that describes a partition, with or without the check:
the partition made has every node that has a key and no other, nodes are in the same
cluster exactly if their keys are equal, clusters are numbered in the order of the keys,
and no cluster is empty. -/
theorem C118_as_given (n : Nat) (arg : Arg) (check : Bool) (hv : ValidArg n arg) :
    ∃ p, mk' n arg check = .ok p ∧ p.numNodes = n ∧
      (∀ v, (∃ k, KeyOf n arg v k) ↔ (p.dict v).isSome) ∧
      (∀ u v k l, KeyOf n arg u k → KeyOf n arg v l →
        ∃ i j : Nat, p.dict u = some (i : Int) ∧ p.dict v = some (j : Int) ∧
          At p.clusters i u ∧ At p.clusters j v ∧ (i = j ↔ k = l) ∧ (i < j ↔ k < l)) ∧
      ∀ c ∈ p.clusters, c.Nonempty := by
  obtain ⟨cl, hpart, hkey, hok⟩ := mk'_list n arg check hv
  refine ⟨_, hok, rfl, fun v => ?_, fun u v k l hu hv => ?_,
    (removeEmpty_effect { numNodes := n, clusters := cl, dict := dictOf cl }).2⟩
  · constructor
    · rintro ⟨k, hk⟩
      obtain ⟨i, rfl, hi⟩ := (hkey v k).1 hk
      rw [dict_removed hpart.disj hi]
      rfl
    · intro h
      obtain ⟨x, hx⟩ := Option.isSome_iff_exists.1 h
      obtain ⟨j, _, hj⟩ := (dictOf_spec _ (disj_filter hpart.disj) v x).1 hx
      obtain ⟨i, hi, _⟩ := at_filter_inv cl j v hj
      exact ⟨i, (hkey v i).2 ⟨i, rfl, hi⟩⟩
  · obtain ⟨i, rfl, hi⟩ := (hkey u k).1 hu
    obtain ⟨j, rfl, hj⟩ := (hkey v l).1 hv
    have e1 := newIndex_lt_iff cl hi hj
    have e2 := newIndex_lt_iff cl hj hi
    refine ⟨newIndex cl i, newIndex cl j, dict_removed hpart.disj hi, dict_removed hpart.disj hj,
      at_filter cl i u hi, at_filter cl j v hj, ?_, by rw [e1]; omega⟩
    omega

/-- **C118.** `get_num_clusters(non_empty=True)` is the number of different clusters that
nodes are in; `get_num_clusters()` is the length of the list, and the two agree exactly if
no cluster is empty. -/
theorem C118_count (p : Part) (h : Consistent p) :
    numClusters p true = ((Finset.range p.numNodes).image p.dict).card ∧
      numClusters p false = p.clusters.length ∧
      (numClusters p true = numClusters p false ↔ ∀ c ∈ p.clusters, c.Nonempty) := by
  refine ⟨?_, rfl, ?_⟩
  · unfold numClusters
    rw [if_pos rfl, filter_length_range]
    rw [← Finset.card_image_of_injective (f := fun i : Nat => some (i : Int)) _ (by
      intro a b hab
      simp only [Option.some.injEq] at hab
      omega)]
    congr 1
    ext x
    simp only [Finset.mem_image, Finset.mem_filter, Finset.mem_range]
    constructor
    · rintro ⟨i, ⟨_, u, hu⟩, rfl⟩
      have hat := at_getD.1 hu
      have hd := (h.2 u (i : Int)).2 ⟨i, rfl, hat⟩
      exact ⟨u, (h.dict_lt hd).2.2, hd⟩
    · rintro ⟨u, hu, rfl⟩
      obtain ⟨k, hd, hat⟩ := h.dict_some hu
      exact ⟨k, ⟨at_lt hat, u, at_getD.2 hat⟩, hd.symm⟩
  · unfold numClusters
    simp only [if_true, Bool.false_eq_true, if_false, List.length_filter_eq_length_iff,
      decide_eq_true_eq, Finset.card_pos]

/-- **C118.** Both arguments, and an empty dictionary, raise `ValueError`. -/
theorem C118_refused (n : Nat) (check : Bool) :
    mk' n .both check = .error .valueError ∧ mk' n (.nodeDict []) check = .error .valueError :=
  ⟨rfl, rfl⟩

/-- **C118.** A dictionary raises `IndexError` exactly if some value lies further below
zero than the largest value reaches above. -/
theorem C118_index_error_iff (n : Nat) (items : List (Nat × Int)) (check : Bool) (m : Int)
    (hm : IsMax items m) :
    mk' n (.nodeDict items) check = .error .indexError ↔
      ∃ v k, (v, k) ∈ items ∧ k < -(m + 1) := by
  have hmv := maxValue_iff.2 hm
  constructor
  · intro h
    by_contra hno
    push Not at hno
    obtain ⟨w, hw⟩ := hm.1
    have hm0 := hno w m hw
    obtain ⟨cl, hok, _⟩ := addItems_gen items (List.replicate (m + 1).toNat ∅) (by
      rintro ⟨v, k⟩ ha
      have h1 := hno v k ha
      have h2 := hm.2 v k ha
      rw [List.length_replicate]
      simp only
      omega)
    unfold mk' at h
    simp only [hmv, hok] at h
    cases check with
    | false => simp at h
    | true =>
      simp only [if_true] at h
      unfold checkIntegrity at h
      simp only at h
      split at h
      · rename_i e he
        split at he
        · simp only [Except.error.injEq] at h he
          rw [← he] at h
          exact absurd h (by decide)
        · split at he
          · simp only [Except.error.injEq] at h he
            rw [← he] at h
            exact absurd h (by decide)
          · simp at he
      · simp at h
  · rintro ⟨v, k, hk, hlt⟩
    have hkm := hm.2 v k hk
    have herr := addItems_err items (List.replicate (m + 1).toNat ∅) ⟨(v, k), hk, by
      rw [List.length_replicate]
      unfold pyIndex
      by_cases h0 : 0 ≤ k
      · omega
      · have h1 : ¬ (-(((m + 1).toNat : Nat) : Int) ≤ k) := by omega
        simp only [h0, h1, if_false]⟩
    unfold mk'
    simp only [hmv, herr]

/-- **C118, not true of the code for negative values.** Without the check and whenever no
`IndexError` is raised, a dictionary with distinct keys is accepted, and a node with a
negative value `k` is put into the cluster of the value `k + max + 1`. -/
theorem C118_negative_violated (n : Nat) (items : List (Nat × Int)) (m : Int)
    (hm : IsMax items m) (hnd : (items.map (·.1)).Nodup)
    (hb : ∀ v k, (v, k) ∈ items → -(m + 1) ≤ k) :
    ∃ p, mk' n (.nodeDict items) false = .ok p ∧
      (∀ u v k l, (u, k) ∈ items → (v, l) ∈ items →
        (p.dict u = p.dict v ↔
          (if k < 0 then k + m + 1 else k) = (if l < 0 then l + m + 1 else l))) ∧
      ∀ u v, (u, -1) ∈ items → (v, m) ∈ items → Together p.clusters u v := by
  have hmv := maxValue_iff.2 hm
  obtain ⟨w, hw⟩ := hm.1
  have hm0 := hb w m hw
  obtain ⟨cl, hok, hlen, hat⟩ := addItems_gen items (List.replicate (m + 1).toNat ∅) (by
    rintro ⟨v, k⟩ ha
    have h1 := hb v k ha
    have h2 := hm.2 v k ha
    rw [List.length_replicate]
    simp only
    omega)
  have hpy : ∀ v k, (v, k) ∈ items →
      pyIndex (m + 1).toNat k = some (if k < 0 then k + m + 1 else k).toNat := by
    intro v k hk
    have h1 := hb v k hk
    have h2 := hm.2 v k hk
    unfold pyIndex
    by_cases h0 : 0 ≤ k
    · have h3 : k < (((m + 1).toNat : Nat) : Int) := by omega
      have h4 : ¬ k < 0 := by omega
      simp only [h0, h3, h4, if_true, if_false]
    · have h3 : -(((m + 1).toNat : Nat) : Int) ≤ k := by omega
      have h4 : k < 0 := by omega
      simp only [h0, h3, h4, if_true, if_false, Option.some.injEq]
      omega
  have hat' : ∀ i v, At cl i v ↔
      ∃ k, (v, k) ∈ items ∧ i = (if k < 0 then k + m + 1 else k).toNat := by
    intro i v
    rw [hat i v, List.length_replicate]
    constructor
    · rintro (h | ⟨k, hk, hi⟩)
      · obtain ⟨c, hc, hv⟩ := h
        rw [List.getElem?_replicate] at hc
        split at hc
        · simp at hc; subst hc; simp at hv
        · simp at hc
      · rw [hpy v k hk] at hi
        simp only [Option.some.injEq] at hi
        exact ⟨k, hk, hi.symm⟩
    · rintro ⟨k, hk, rfl⟩
      exact Or.inr ⟨k, hk, hpy v k hk⟩
  have huniq : ∀ v k l, (v, k) ∈ items → (v, l) ∈ items → k = l := by
    intro v k l hk hl
    have := List.inj_on_of_nodup_map hnd hk hl rfl
    exact (Prod.mk.inj this).2
  have hd : Disj cl := by
    intro v i j hi hj
    obtain ⟨k, hk, rfl⟩ := (hat' i v).1 hi
    obtain ⟨l, hl, rfl⟩ := (hat' j v).1 hj
    rw [huniq v k l hk hl]
  have hnn : ∀ v k, (v, k) ∈ items → 0 ≤ (if k < 0 then k + m + 1 else k) := by
    intro v k hk
    have h1 := hb v k hk
    split <;> omega
  refine ⟨removeEmpty { numNodes := n, clusters := cl, dict := dictOf cl }, ?_,
    fun u v k l hu hv => ?_, fun u v hu hv => ?_⟩
  · unfold mk'
    simp only [hmv, hok]
    rfl
  · have au := (hat' _ u).2 ⟨k, hu, rfl⟩
    have av := (hat' _ v).2 ⟨l, hv, rfl⟩
    rw [dict_removed hd au, dict_removed hd av]
    have e1 := newIndex_lt_iff cl au av
    have e2 := newIndex_lt_iff cl av au
    have h1 := hnn u k hu
    have h2 := hnn v l hv
    simp only [Option.some.injEq, Nat.cast_inj]
    omega
  · refine ((removeEmpty_effect { numNodes := n, clusters := cl, dict := dictOf cl }).1 u v).2
      ⟨m.toNat, (hat' _ u).2 ⟨-1, hu, ?_⟩, (hat' _ v).2 ⟨m, hv, ?_⟩⟩
    · simp
    · have := hnn v m hv
      have hm1 : ¬ m < 0 := by omega
      simp [hm1]

/-! ### the hypotheses are met -/

/-- A dictionary with a gap in its values and one with a negative value. -/
example : ValidArg 3 (.nodeDict [(0, 4), (1, 2), (2, 4)]) ∧
    IsMax [(0, 1), (1, -1), (2, 0)] 1 ∧
    (∀ v k, (v, k) ∈ ([(0, 1), (1, -1), (2, 0)] : List (Nat × Int)) → -(1 + 1) ≤ k) := by
  refine ⟨⟨by decide, fun v => ?_, by decide, by decide⟩, ⟨⟨0, by decide⟩, ?_⟩, ?_⟩
  · simp; omega
  · intro v k h; simp at h; omega
  · intro v k h; simp at h; omega

/-- Three nodes with the values 1, -1 and 0: the first two end up in one cluster. -/
example : ∃ p, mk' 3 (.nodeDict [(0, 1), (1, -1), (2, 0)]) false = .ok p ∧
    p.dict 0 = p.dict 1 ∧ p.dict 0 ≠ p.dict 2 := by
  refine ⟨_, rfl, by decide +kernel, by decide +kernel⟩

end Verif.Partition
