import Verif.Partition.Spec
import Mathlib.Data.Finset.Basic
import Mathlib.Tactic.Linarith

namespace Verif.Partition

theorem at_nil (i v : Nat) : ¬ At [] i v := by simp [At]

theorem at_zero (c : Finset Nat) (cs : List (Finset Nat)) (v : Nat) :
    At (c :: cs) 0 v ↔ v ∈ c := by simp [At]

theorem at_succ (c : Finset Nat) (cs : List (Finset Nat)) (i v : Nat) :
    At (c :: cs) (i + 1) v ↔ At cs i v := by simp [At]

theorem at_lt {cl : List (Finset Nat)} {i v : Nat} (h : At cl i v) : i < cl.length := by
  obtain ⟨c, hc, _⟩ := h
  exact (List.getElem?_eq_some_iff.1 hc).1

theorem at_getD {cl : List (Finset Nat)} {i v : Nat} : v ∈ cl.getD i ∅ ↔ At cl i v := by
  unfold At
  rw [List.getD_eq_getElem?_getD]
  cases cl[i]? <;> simp

/-- Nobody is in two positions. -/
def Disj (cl : List (Finset Nat)) : Prop := ∀ v i j, At cl i v → At cl j v → i = j

theorem disj_tail {c : Finset Nat} {cs : List (Finset Nat)} (h : Disj (c :: cs)) : Disj cs := by
  intro v i j hi hj
  have := h v (i + 1) (j + 1) ((at_succ ..).2 hi) ((at_succ ..).2 hj)
  omega

theorem disj_head {c : Finset Nat} {cs : List (Finset Nat)} (h : Disj (c :: cs)) {v i : Nat}
    (hv : v ∈ c) : ¬ At cs i v := by
  intro hi
  have := h v 0 (i + 1) ((at_zero ..).2 hv) ((at_succ ..).2 hi)
  omega

theorem IsPartition.disj {n : Nat} {cl : List (Finset Nat)} (h : IsPartition n cl) : Disj cl := by
  intro v i j hi hj
  by_cases hv : v < n
  · exact ((h v).1 hv).unique hi hj
  · exact absurd hi ((h v).2 (by omega) i)

theorem isPartition_iff {n : Nat} {cl : List (Finset Nat)} :
    IsPartition n cl ↔ Disj cl ∧ ∀ v, v < n ↔ ∃ i, At cl i v := by
  constructor
  · intro h
    refine ⟨h.disj, fun v => ⟨fun hv => ((h v).1 hv).exists, fun ⟨i, hi⟩ => ?_⟩⟩
    by_contra hv
    exact (h v).2 (by omega) i hi
  · rintro ⟨hd, hc⟩ v
    refine ⟨fun hv => ?_, fun hv i hi => ?_⟩
    · obtain ⟨i, hi⟩ := (hc v).1 hv
      exact ⟨i, hi, fun j hj => hd v j i hj hi⟩
    · have := (hc v).2 ⟨i, hi⟩
      omega

theorem fillDict_spec (d : Nat → Option Int) (s : Nat) (cl : List (Finset Nat)) (hd : Disj cl)
    (v : Nat) :
    (∀ k, At cl k v → fillDict d s cl v = some ((s + k : Nat) : Int)) ∧
    ((∀ k, ¬ At cl k v) → fillDict d s cl v = d v) := by
  induction cl generalizing d s with
  | nil => exact ⟨fun k hk => absurd hk (at_nil k v), fun _ => rfl⟩
  | cons c cs ih =>
    have ih' := ih (fun u => if u ∈ c then some (s : Int) else d u) (s + 1) (disj_tail hd)
    constructor
    · intro k hk
      cases k with
      | zero =>
        have hv := (at_zero c cs v).1 hk
        have := ih'.2 (fun k => disj_head hd hv)
        simp only [fillDict, this, hv, if_true]
        rfl
      | succ k =>
        have := ih'.1 k ((at_succ ..).1 hk)
        simp only [fillDict, this]
        congr 2
        omega
    · intro h
      have h1 : v ∉ c := fun hv => h 0 ((at_zero ..).2 hv)
      have := ih'.2 (fun k hk => h (k + 1) ((at_succ ..).2 hk))
      simp only [fillDict, this, h1, if_false]

theorem dictOf_spec (cl : List (Finset Nat)) (hd : Disj cl) (v : Nat) (i : Int) :
    dictOf cl v = some i ↔ ∃ k : Nat, i = k ∧ At cl k v := by
  unfold dictOf
  obtain ⟨h1, h2⟩ := fillDict_spec (fun _ => none) 0 cl hd v
  constructor
  · intro h
    by_cases hex : ∃ k, At cl k v
    · obtain ⟨k, hk⟩ := hex
      rw [h1 k hk] at h
      exact ⟨k, by simpa using h.symm, hk⟩
    · have := h2 (fun k hk => hex ⟨k, hk⟩)
      rw [this] at h
      simp at h
  · rintro ⟨k, rfl, hk⟩
    rw [h1 k hk]
    simp

/-! ### removing empty clusters -/

/-- Position of entry `i` among the non-empty clusters. -/
def newIndex (cl : List (Finset Nat)) (i : Nat) : Nat :=
  ((cl.take i).filter fun c => decide (0 < c.card)).length

theorem newIndex_succ (c : Finset Nat) (cs : List (Finset Nat)) (i : Nat) :
    newIndex (c :: cs) (i + 1) = newIndex cs i + if 0 < c.card then 1 else 0 := by
  unfold newIndex
  simp only [List.take_succ_cons, List.filter_cons, decide_eq_true_eq]
  split <;> simp

theorem at_filter (cl : List (Finset Nat)) (i v : Nat) (h : At cl i v) :
    At (cl.filter fun c => decide (0 < c.card)) (newIndex cl i) v := by
  induction cl generalizing i with
  | nil => exact absurd h (at_nil i v)
  | cons c cs ih =>
    cases i with
    | zero =>
      have hv := (at_zero ..).1 h
      have hc : 0 < c.card := Finset.card_pos.2 ⟨v, hv⟩
      simp only [List.filter_cons, decide_eq_true_eq, hc, if_true]
      exact (at_zero ..).2 hv
    | succ i =>
      have := ih i ((at_succ ..).1 h)
      rw [newIndex_succ]
      simp only [List.filter_cons, decide_eq_true_eq]
      split
      · exact (at_succ ..).2 this
      · exact this

theorem at_filter_inv (cl : List (Finset Nat)) (j v : Nat)
    (h : At (cl.filter fun c => decide (0 < c.card)) j v) :
    ∃ i, At cl i v ∧ newIndex cl i = j := by
  induction cl generalizing j with
  | nil => exact absurd h (at_nil j v)
  | cons c cs ih =>
    simp only [List.filter_cons, decide_eq_true_eq] at h
    split at h
    · rename_i hc
      cases j with
      | zero => exact ⟨0, (at_zero ..).2 ((at_zero ..).1 h), rfl⟩
      | succ j =>
        obtain ⟨i, hi, hj⟩ := ih j ((at_succ ..).1 h)
        refine ⟨i + 1, (at_succ ..).2 hi, ?_⟩
        rw [newIndex_succ, if_pos hc, hj]
    · rename_i hc
      obtain ⟨i, hi, hj⟩ := ih j h
      refine ⟨i + 1, (at_succ ..).2 hi, ?_⟩
      rw [newIndex_succ, if_neg hc, hj, Nat.add_zero]

theorem disj_filter {cl : List (Finset Nat)} (hd : Disj cl) :
    Disj (cl.filter fun c => decide (0 < c.card)) := by
  intro v i j hi hj
  obtain ⟨i', h1, rfl⟩ := at_filter_inv cl i v hi
  obtain ⟨j', h2, rfl⟩ := at_filter_inv cl j v hj
  rw [hd v i' j' h1 h2]

theorem exists_at_filter {cl : List (Finset Nat)} (v : Nat) :
    (∃ i, At (cl.filter fun c => decide (0 < c.card)) i v) ↔ ∃ i, At cl i v :=
  ⟨fun ⟨j, hj⟩ => by obtain ⟨i, hi, _⟩ := at_filter_inv cl j v hj; exact ⟨i, hi⟩,
   fun ⟨i, hi⟩ => ⟨_, at_filter cl i v hi⟩⟩

theorem isPartition_filter {n : Nat} {cl : List (Finset Nat)} (h : IsPartition n cl) :
    IsPartition n (cl.filter fun c => decide (0 < c.card)) := by
  rw [isPartition_iff] at h ⊢
  exact ⟨disj_filter h.1, fun v => (h.2 v).trans (exists_at_filter v).symm⟩

theorem consistent_removeEmpty {p : Part} (h : IsPartition p.numNodes p.clusters) :
    Consistent (removeEmpty p) :=
  ⟨isPartition_filter h, fun v i => dictOf_spec _ (isPartition_filter h).disj v i⟩

theorem isPartition_singletons (n : Nat) : IsPartition n (singletons n) := by
  have key : ∀ i v, At (singletons n) i v ↔ i < n ∧ v = i := by
    intro i v
    unfold At singletons
    by_cases hi : i < n <;> simp [hi]
  intro v
  refine ⟨fun hv => ⟨v, (key v v).2 ⟨hv, rfl⟩, fun j hj => ((key j v).1 hj).2.symm⟩, fun hv i hi => ?_⟩
  have := (key i v).1 hi
  omega

/-! ### building from a dictionary -/

theorem pyIndex_nonneg {len : Nat} {c : Int} (h0 : 0 ≤ c) (h : c < len) :
    pyIndex len c = some c.toNat := by
  simp [pyIndex, h0, h]

theorem at_modify (cl : List (Finset Nat)) (k : Nat) (f : Finset Nat → Finset Nat) (i v : Nat) :
    At (cl.modify k f) i v ↔ if i = k then (∃ c, cl[i]? = some c ∧ v ∈ f c) else At cl i v := by
  unfold At
  rw [List.getElem?_modify]
  by_cases h : k = i
  · subst h
    cases cl[k]? <;> simp
  · rw [if_neg (fun h' => h h'.symm)]
    cases cl[i]? <;> simp [h]

theorem maxValue_ge {items : List (Nat × Int)} {m : Int} (h : maxValue items = some m) :
    ∀ a ∈ items, a.2 ≤ m := by
  induction items generalizing m with
  | nil => simp
  | cons a items ih =>
    obtain ⟨v, c⟩ := a
    simp only [maxValue] at h
    cases hm : maxValue items with
    | none =>
      rw [hm] at h
      simp at h
      subst h
      intro a ha
      rcases List.mem_cons.1 ha with rfl | ha
      · exact le_refl _
      · cases items with
        | nil => simp at ha
        | cons b items =>
          obtain ⟨v', c'⟩ := b
          simp only [maxValue] at hm
          cases hm' : maxValue items <;> simp [hm'] at hm
    | some m' =>
      rw [hm] at h
      simp at h
      subst h
      intro a ha
      rcases List.mem_cons.1 ha with rfl | ha
      · exact le_max_left _ _
      · exact le_trans (ih hm a ha) (le_max_right _ _)

theorem maxValue_some {items : List (Nat × Int)} (h : items ≠ []) : ∃ m, maxValue items = some m := by
  cases items with
  | nil => exact absurd rfl h
  | cons a items =>
    simp only [maxValue]
    cases maxValue items <;> simp

theorem addItems_spec (items : List (Nat × Int)) (cl : List (Finset Nat))
    (hb : ∀ a ∈ items, 0 ≤ a.2 ∧ a.2 < cl.length) :
    ∃ cl', addItems items cl = .ok cl' ∧ cl'.length = cl.length ∧
      ∀ i v, At cl' i v ↔ At cl i v ∨ (v, (i : Int)) ∈ items := by
  induction items generalizing cl with
  | nil => exact ⟨cl, rfl, rfl, by simp⟩
  | cons a items ih =>
    obtain ⟨u, c⟩ := a
    obtain ⟨h0, h1⟩ := hb (u, c) (by simp)
    simp only at h0 h1
    have hp := pyIndex_nonneg h0 h1
    obtain ⟨cl', hok, hlen, hat⟩ := ih (cl.modify c.toNat (insert u)) (by
      intro a ha
      rw [List.length_modify]
      exact hb a (by simp [ha]))
    refine ⟨cl', ?_, by rw [hlen, List.length_modify], ?_⟩
    · simp only [addItems, hp, hok]
    · intro i v
      rw [hat i v, at_modify]
      have hci : i = c.toNat → ∃ s, cl[i]? = some s := by
        intro h
        have : i < cl.length := by omega
        exact ⟨cl[i], by simp [this]⟩
      by_cases hi : i = c.toNat
      · rw [if_pos hi]
        obtain ⟨s, hs⟩ := hci hi
        have hAt : At cl i v ↔ v ∈ s := by simp [At, hs]
        rw [hAt, hs]
        have hic : (i : Int) = c := by omega
        simp only [Option.some.injEq, exists_eq_left', Finset.mem_insert, List.mem_cons,
          Prod.mk.injEq, hic, and_true]
        tauto
      · rw [if_neg hi]
        have hic : (i : Int) ≠ c := by omega
        simp [hic]

theorem dict_isPartition (n : Nat) (items : List (Nat × Int))
    (hnd : (items.map (·.1)).Nodup) (hkeys : ∀ v, v ∈ items.map (·.1) ↔ v < n)
    (cl : List (Finset Nat)) (hat : ∀ i v, At cl i v ↔ (v, (i : Int)) ∈ items)
    (hpos : ∀ a ∈ items, 0 ≤ a.2) : IsPartition n cl := by
  rw [isPartition_iff]
  constructor
  · intro v i j hi hj
    have h1 := (hat i v).1 hi
    have h2 := (hat j v).1 hj
    have := List.inj_on_of_nodup_map hnd h1 h2 rfl
    simp at this
    exact this
  · intro v
    rw [← hkeys v]
    constructor
    · intro hv
      obtain ⟨⟨u, c⟩, hmem, rfl⟩ := List.mem_map.1 hv
      have := hpos _ hmem
      refine ⟨c.toNat, (hat _ _).2 ?_⟩
      simp only at this ⊢
      rw [Int.toNat_of_nonneg this]
      exact hmem
    · rintro ⟨i, hi⟩
      exact List.mem_map.2 ⟨_, (hat i v).1 hi, rfl⟩

/-! ### moving a node -/

theorem Consistent.dict_lt {p : Part} (h : Consistent p) {v : Nat} {i : Int}
    (hd : p.dict v = some i) : 0 ≤ i ∧ i < p.clusters.length ∧ v < p.numNodes := by
  obtain ⟨k, rfl, hk⟩ := (h.2 v i).1 hd
  refine ⟨by omega, by have := at_lt hk; omega, ?_⟩
  by_contra hv
  exact (h.1 v).2 (by omega) k hk

theorem Consistent.dict_some {p : Part} (h : Consistent p) {v : Nat} (hv : v < p.numNodes) :
    ∃ k : Nat, p.dict v = some (k : Int) ∧ At p.clusters k v := by
  obtain ⟨k, hk, _⟩ := (h.1 v).1 hv
  exact ⟨k, (h.2 v k).2 ⟨k, rfl, hk⟩, hk⟩

/-- In a consistent partition, a move to an existing cluster succeeds and has the
expected effect. -/
theorem moveNode_ok {p : Part} (h : Consistent p) {v : Nat} {ci cf : Nat}
    (hd : p.dict v = some (ci : Int)) (hcf : cf < p.clusters.length) (hne : ci ≠ cf) :
    moveNode p v cf =
      (none,
        { p with
          dict := fun u => if u = v then some (cf : Int) else p.dict u
          clusters := (p.clusters.modify ci (·.erase v)).modify cf (insert v) }) := by
  have hlt := h.dict_lt hd
  obtain ⟨k, hk, hat⟩ := (h.2 v ci).1 hd
  have hk' : ci = k := by omega
  subst hk'
  have h1 : pyIndex p.clusters.length (ci : Int) = some ci := by
    rw [pyIndex_nonneg (by omega) hlt.2.1]; simp
  have h2 : pyIndex (p.clusters.modify ci (·.erase v)).length (cf : Int) = some cf := by
    rw [List.length_modify, pyIndex_nonneg (by omega) (by omega)]; simp
  have hne' : (ci : Int) ≠ (cf : Int) := by omega
  unfold moveNode
  simp only [hd, ne_eq, hne', not_false_eq_true, if_true, h1, at_getD.2 hat, h2]

theorem at_move (cl : List (Finset Nat)) (v ci cf : Nat) (hne : ci ≠ cf) (hcf : cf < cl.length)
    (i u : Nat) :
    At ((cl.modify ci (·.erase v)).modify cf (insert v)) i u ↔
      if i = cf then (u = v ∨ At cl i u) else if i = ci then (u ≠ v ∧ At cl i u) else At cl i u := by
  rw [at_modify]
  by_cases h1 : i = cf
  · subst h1
    simp only [if_true]
    have : (cl.modify ci (·.erase v))[i]? = cl[i]? := by
      rw [List.getElem?_modify]
      cases cl[i]? <;> simp [hne]
    rw [this]
    have hs : cl[i]? = some cl[i] := by simp [hcf]
    unfold At
    rw [hs]
    simp
  · rw [if_neg h1, if_neg h1, at_modify]
    by_cases h2 : i = ci
    · subst h2
      simp only [if_true]
      unfold At
      cases cl[i]? <;> simp
    · rw [if_neg h2, if_neg h2]

theorem consistent_move {p : Part} (h : Consistent p) {v : Nat} {cf : Int}
    (h0 : 0 ≤ cf) (hcf : cf < p.clusters.length) : Consistent (moveNode p v cf).2 := by
  obtain ⟨cf, rfl⟩ := Int.eq_ofNat_of_zero_le h0
  have hcf' : cf < p.clusters.length := by omega
  cases hd : p.dict v with
  | none => unfold moveNode; rw [hd]; exact h
  | some ci =>
    have hlt := h.dict_lt hd
    obtain ⟨ci, rfl⟩ := Int.eq_ofNat_of_zero_le hlt.1
    by_cases hne : ci = cf
    · unfold moveNode; rw [hd]; subst hne; simp; exact h
    · rw [moveNode_ok h hd hcf' hne]
      obtain ⟨k, hk, hat⟩ := (h.2 v ci).1 hd
      have hk' : ci = k := by omega
      subst hk'
      have hdisj := h.1.disj
      have hnotf : ¬ At p.clusters cf v := fun hf => hne (hdisj v ci cf hat hf)
      refine ⟨?_, ?_⟩
      · rw [isPartition_iff]
        constructor
        · intro u i j hi hj
          simp only at hi hj
          rw [at_move _ _ _ _ hne hcf'] at hi hj
          have key : ∀ i, (if i = cf then (u = v ∨ At p.clusters i u)
              else if i = ci then (u ≠ v ∧ At p.clusters i u) else At p.clusters i u) →
              (u = v → i = cf) ∧ (u ≠ v → At p.clusters i u) := by
            intro x hx
            split at hx
            · rename_i hicf
              exact ⟨fun _ => hicf, fun hu => hx.resolve_left hu⟩
            · split at hx
              · exact ⟨fun hu => absurd hu hx.1, fun _ => hx.2⟩
              · rename_i h2
                refine ⟨fun hu => ?_, fun _ => hx⟩
                exact absurd (hdisj v x ci (hu ▸ hx) hat) h2
          have ki := key i hi
          have kj := key j hj
          by_cases hu : u = v
          · rw [ki.1 hu, kj.1 hu]
          · exact hdisj u i j (ki.2 hu) (kj.2 hu)
        · intro u
          rw [(isPartition_iff.1 h.1).2 u]
          simp only
          constructor
          · rintro ⟨i, hi⟩
            by_cases hu : u = v
            · exact ⟨cf, (at_move _ _ _ _ hne hcf' _ _).2 (by simp [hu])⟩
            · refine ⟨i, (at_move _ _ _ _ hne hcf' _ _).2 ?_⟩
              split
              · exact Or.inr hi
              · split
                · exact ⟨hu, hi⟩
                · exact hi
          · rintro ⟨i, hi⟩
            rw [at_move _ _ _ _ hne hcf'] at hi
            split at hi
            · rcases hi with rfl | hi
              · exact ⟨ci, hat⟩
              · exact ⟨i, hi⟩
            · split at hi
              · exact ⟨i, hi.2⟩
              · exact ⟨i, hi⟩
      · intro u i
        simp only
        by_cases hu : u = v
        · subst hu
          rw [if_pos rfl]
          constructor
          · intro hi
            simp at hi
            exact ⟨cf, hi.symm, (at_move _ _ _ _ hne hcf' _ _).2 (by simp)⟩
          · rintro ⟨k, rfl, hk⟩
            rw [at_move _ _ _ _ hne hcf'] at hk
            split at hk
            · rename_i hkc; rw [hkc]
            · split at hk
              · exact absurd rfl hk.1
              · rename_i h2
                exact absurd (hdisj u k ci hk hat) h2
        · rw [if_neg hu, h.2 u i]
          constructor
          · rintro ⟨k, rfl, hk⟩
            refine ⟨k, rfl, (at_move _ _ _ _ hne hcf' _ _).2 ?_⟩
            split
            · exact Or.inr hk
            · split
              · exact ⟨hu, hk⟩
              · exact hk
          · rintro ⟨k, rfl, hk⟩
            rw [at_move _ _ _ _ hne hcf'] at hk
            refine ⟨k, rfl, ?_⟩
            split at hk
            · exact hk.resolve_left hu
            · split at hk
              · exact hk.2
              · exact hk

/-! ### check_integrity -/

theorem foldl_add_card (l : List Nat) (f : Nat → Nat) (t : Nat) :
    l.foldl (fun t i => t + f i) t = t + (l.map f).sum := by
  induction l generalizing t with
  | nil => simp
  | cons a l ih => simp [ih]; omega

theorem mem_inter_fold (l m : List Nat) (g : Nat → Nat → Finset Nat) (s : Finset Nat) (v : Nat) :
    v ∈ l.foldl (fun s i => m.foldl (fun s j => if i ≠ j then s ∪ g i j else s) s) s ↔
      v ∈ s ∨ ∃ i ∈ l, ∃ j ∈ m, i ≠ j ∧ v ∈ g i j := by
  have inner : ∀ (m : List Nat) (i : Nat) (s : Finset Nat),
      v ∈ m.foldl (fun s j => if i ≠ j then s ∪ g i j else s) s ↔
        v ∈ s ∨ ∃ j ∈ m, i ≠ j ∧ v ∈ g i j := by
    intro m i
    induction m with
    | nil => simp
    | cons a m ih =>
      intro s
      rw [List.foldl_cons, ih]
      by_cases h : i = a
      · simp [h]
      · simp only [ne_eq, h, not_false_eq_true, if_true, Finset.mem_union, List.mem_cons,
          exists_eq_or_imp, true_and]
        tauto
  induction l generalizing s with
  | nil => simp
  | cons a l ih =>
    rw [List.foldl_cons]
    refine (ih _).trans ?_
    rw [inner]
    simp only [List.mem_cons, exists_eq_or_imp, or_assoc]

theorem checkIntegrity_iff (p : Part) :
    checkIntegrity p = .ok () ↔
      Disj p.clusters ∧ (p.clusters.map Finset.card).sum = p.numNodes := by
  have hsum : (List.range p.clusters.length).foldl
      (fun t i => t + (p.clusters.getD i ∅).card) 0 = (p.clusters.map Finset.card).sum := by
    rw [foldl_add_card]
    rw [Nat.zero_add]
    congr 1
    apply List.ext_getElem
    · simp
    · intro i h1 h2
      simp at h1 h2
      simp [List.getD_eq_getElem?_getD, h1]
  have hcard : ∀ s : Finset Nat, 0 < s.card ↔ ∃ v, v ∈ s := fun s => Finset.card_pos
  unfold checkIntegrity
  simp only [hsum]
  by_cases hd : Disj p.clusters
  · have hemp : ¬ 0 < ((List.range p.clusters.length).foldl (fun s i =>
        (List.range p.clusters.length).foldl (fun s j =>
          if i ≠ j then s ∪ (p.clusters.getD i ∅ ∩ p.clusters.getD j ∅) else s) s) ∅).card := by
      rw [hcard]
      rintro ⟨v, hv⟩
      rw [mem_inter_fold _ _ (fun i j => p.clusters.getD i ∅ ∩ p.clusters.getD j ∅)] at hv
      rcases hv with hv | ⟨i, _, j, _, hij, hv⟩
      · simp at hv
      · rw [Finset.mem_inter, at_getD, at_getD] at hv
        exact hij (hd v i j hv.1 hv.2)
    rw [if_neg hemp]
    by_cases hs : (p.clusters.map Finset.card).sum = p.numNodes
    · simp [hs, hd]
    · simp [hs]
  · have hne : 0 < ((List.range p.clusters.length).foldl (fun s i =>
        (List.range p.clusters.length).foldl (fun s j =>
          if i ≠ j then s ∪ (p.clusters.getD i ∅ ∩ p.clusters.getD j ∅) else s) s) ∅).card := by
      rw [hcard]
      unfold Disj at hd
      push Not at hd
      obtain ⟨v, i, j, hi, hj, hij⟩ := hd
      refine ⟨v, ?_⟩
      rw [mem_inter_fold _ _ (fun i j => p.clusters.getD i ∅ ∩ p.clusters.getD j ∅)]
      right
      refine ⟨i, by simp [at_lt hi], j, by simp [at_lt hj], hij, ?_⟩
      rw [Finset.mem_inter, at_getD, at_getD]
      exact ⟨hi, hj⟩
    rw [if_pos hne]
    simp [hd]

/-- Union of all clusters. -/
def support (cl : List (Finset Nat)) : Finset Nat := cl.foldr (· ∪ ·) ∅

theorem mem_support (cl : List (Finset Nat)) (v : Nat) : v ∈ support cl ↔ ∃ i, At cl i v := by
  induction cl with
  | nil => simp [support, at_nil]
  | cons c cs ih =>
    have : support (c :: cs) = c ∪ support cs := rfl
    rw [this, Finset.mem_union, ih]
    constructor
    · rintro (h | ⟨i, h⟩)
      · exact ⟨0, (at_zero ..).2 h⟩
      · exact ⟨i + 1, (at_succ ..).2 h⟩
    · rintro ⟨i, h⟩
      cases i with
      | zero => exact Or.inl ((at_zero ..).1 h)
      | succ i => exact Or.inr ⟨i, (at_succ ..).1 h⟩

theorem card_support (cl : List (Finset Nat)) (hd : Disj cl) :
    (support cl).card = (cl.map Finset.card).sum := by
  induction cl with
  | nil => rfl
  | cons c cs ih =>
    have : support (c :: cs) = c ∪ support cs := rfl
    rw [this, Finset.card_union_of_disjoint, ih (disj_tail hd)]
    · simp
    · rw [Finset.disjoint_left]
      intro v hv hs
      obtain ⟨i, hi⟩ := (mem_support cs v).1 hs
      exact disj_head hd hv hi

theorem isPartition_iff_card {n : Nat} {cl : List (Finset Nat)} (hr : ∀ v i, At cl i v → v < n) :
    IsPartition n cl ↔ Disj cl ∧ (cl.map Finset.card).sum = n := by
  rw [isPartition_iff]
  constructor
  · rintro ⟨hd, hc⟩
    refine ⟨hd, ?_⟩
    rw [← card_support cl hd]
    have : support cl = Finset.range n := by
      ext v
      rw [mem_support, Finset.mem_range, hc v]
    rw [this, Finset.card_range]
  · rintro ⟨hd, hs⟩
    refine ⟨hd, fun v => ⟨fun hv => ?_, fun ⟨i, hi⟩ => hr v i hi⟩⟩
    have hsub : support cl ⊆ Finset.range n := by
      intro u hu
      obtain ⟨i, hi⟩ := (mem_support cl u).1 hu
      exact Finset.mem_range.2 (hr u i hi)
    have heq : support cl = Finset.range n :=
      Finset.eq_of_subset_of_card_le hsub (by rw [Finset.card_range, card_support cl hd, hs])
    rw [← mem_support, heq, Finset.mem_range]
    exact hv

/-! ### constructor -/

theorem removeEmpty_effect (p : Part) :
    (∀ u v, Together (removeEmpty p).clusters u v ↔ Together p.clusters u v) ∧
      ∀ c ∈ (removeEmpty p).clusters, c.Nonempty := by
  constructor
  · intro u v
    constructor
    · rintro ⟨j, hu, hv⟩
      obtain ⟨i, hi, rfl⟩ := at_filter_inv _ _ _ hu
      obtain ⟨i', hi', hii⟩ := at_filter_inv _ _ _ hv
      refine ⟨i, hi, ?_⟩
      suffices i = i' by subst this; exact hi'
      by_contra hne
      have key : ∀ (cl : List (Finset Nat)) (i i' u : Nat), i < i' → At cl i u →
          newIndex cl i < newIndex cl i' := by
        intro cl
        induction cl with
        | nil => intro i i' u _ h; exact absurd h (at_nil i u)
        | cons c cs ih =>
          intro i i' u hlt h
          cases i' with
          | zero => omega
          | succ i' =>
            cases i with
            | zero =>
              have hu := (at_zero ..).1 h
              rw [newIndex_succ, if_pos (Finset.card_pos.2 ⟨u, hu⟩)]
              simp [newIndex]
            | succ i =>
              have := ih i i' u (by omega) ((at_succ ..).1 h)
              rw [newIndex_succ, newIndex_succ]
              omega
      rcases Nat.lt_or_gt_of_ne hne with hlt | hlt
      · have := key p.clusters i i' u hlt hi; omega
      · have := key p.clusters i' i v hlt hi'; omega
    · rintro ⟨i, hu, hv⟩
      exact ⟨_, at_filter _ _ _ hu, at_filter _ _ _ hv⟩
  · intro c hc
    have := List.mem_filter.1 hc
    exact Finset.card_pos.1 (by simpa using this.2)

theorem mk'_dict (n : Nat) (items : List (Nat × Int)) (hnd : (items.map (·.1)).Nodup)
    (hkeys : ∀ v, v ∈ items.map (·.1) ↔ v < n) (hpos : ∀ a ∈ items, 0 ≤ a.2)
    (hne : items ≠ []) :
    ∃ p, mk' n (.nodeDict items) false = .ok p ∧ Consistent p ∧ p.numNodes = n ∧
      (∀ u v, Together p.clusters u v ↔ ∃ k, (u, k) ∈ items ∧ (v, k) ∈ items) ∧
      ∀ c ∈ p.clusters, c.Nonempty := by
  obtain ⟨m, hm⟩ := maxValue_some hne
  obtain ⟨cl, hok, _, hat⟩ := addItems_spec items (List.replicate (m + 1).toNat ∅) (by
    intro a ha
    have h1 := maxValue_ge hm a ha
    have h2 := hpos a ha
    rw [List.length_replicate]
    omega)
  have hat' : ∀ i v, At cl i v ↔ (v, (i : Int)) ∈ items := by
    intro i v
    rw [hat i v]
    constructor
    · rintro (h | h)
      · unfold At at h
        obtain ⟨c, hc, hv⟩ := h
        rw [List.getElem?_replicate] at hc
        split at hc
        · simp at hc; subst hc; simp at hv
        · simp at hc
      · exact h
    · exact Or.inr
  have hpart := dict_isPartition n items hnd hkeys cl hat' hpos
  have heff := removeEmpty_effect { numNodes := n, clusters := cl, dict := dictOf cl }
  refine ⟨removeEmpty { numNodes := n, clusters := cl, dict := dictOf cl }, ?_,
    consistent_removeEmpty hpart, rfl, fun u v => (heff.1 u v).trans ?_, heff.2⟩
  · unfold mk'
    simp only [hm, hok]
    rfl
  · constructor
    · rintro ⟨i, hu, hv⟩
      exact ⟨i, (hat' i u).1 hu, (hat' i v).1 hv⟩
    · rintro ⟨k, hu, hv⟩
      have := hpos _ hu
      simp only at this
      obtain ⟨i, rfl⟩ := Int.eq_ofNat_of_zero_le this
      exact ⟨i, (hat' i u).2 hu, (hat' i v).2 hv⟩

theorem mk'_ok (n : Nat) (arg : Arg) (check : Bool) (h : ValidArg n arg) :
    ∃ p, mk' n arg check = .ok p ∧ Consistent p ∧ p.numNodes = n := by
  have fin : ∀ cl, IsPartition n cl → ∃ p,
      (if check then
        match checkIntegrity (removeEmpty { numNodes := n, clusters := cl, dict := dictOf cl }) with
        | .error e => .error e
        | .ok () => .ok (removeEmpty { numNodes := n, clusters := cl, dict := dictOf cl })
      else .ok (removeEmpty { numNodes := n, clusters := cl, dict := dictOf cl }) : Except Err Part)
        = .ok p ∧ Consistent p ∧ p.numNodes = n := by
    intro cl hcl
    have hc : Consistent (removeEmpty { numNodes := n, clusters := cl, dict := dictOf cl }) :=
      consistent_removeEmpty hcl
    refine ⟨_, ?_, hc, rfl⟩
    have hci := (checkIntegrity_iff
      (removeEmpty { numNodes := n, clusters := cl, dict := dictOf cl })).2
        ((isPartition_iff_card (fun v i hi => by
          by_contra hv
          exact (hc.1 v).2 (by omega) i hi)).1 hc.1)
    rw [hci]
    cases check <;> rfl
  cases arg with
  | none => exact fin _ (isPartition_singletons n)
  | clusterList cl => exact fin cl h
  | nodeDict items =>
    obtain ⟨hnd, hkeys, hpos, hne⟩ := h
    obtain ⟨m, hm⟩ := maxValue_some hne
    obtain ⟨cl, hok, _, hat⟩ := addItems_spec items (List.replicate (m + 1).toNat ∅) (by
      intro a ha
      have h1 := maxValue_ge hm a ha
      have h2 := hpos a ha
      rw [List.length_replicate]
      omega)
    have hat' : ∀ i v, At cl i v ↔ (v, (i : Int)) ∈ items := by
      intro i v
      rw [hat i v]
      constructor
      · rintro (h | h)
        · unfold At at h
          obtain ⟨c, hc, hv⟩ := h
          rw [List.getElem?_replicate] at hc
          split at hc
          · simp at hc; subst hc; simp at hv
          · simp at hc
        · exact h
      · exact Or.inr
    have := fin cl (dict_isPartition n items hnd hkeys cl hat' hpos)
    unfold mk'
    simp only [hm, hok]
    exact this
  | both => exact absurd h (by simp [ValidArg])

theorem run_consistent (p : Part) (ops : List Op) (h : Consistent p) (ht : TargetsExist p ops) :
    Consistent (run p ops) ∧ (run p ops).numNodes = p.numNodes := by
  induction ops generalizing p with
  | nil => exact ⟨h, rfl⟩
  | cons op ops ih =>
    cases op with
    | move v c =>
      have h1 := consistent_move (v := v) h ht.1.1 ht.1.2
      have h2 := ih _ h1 ht.2
      refine ⟨h2.1, h2.2.trans ?_⟩
      show (moveNode p v c).2.numNodes = p.numNodes
      unfold moveNode
      split
      · rfl
      · split
        · dsimp only
          split
          · rfl
          · split
            · split <;> rfl
            · rfl
        · rfl
    | removeEmpty =>
      have h1 := consistent_removeEmpty h.1
      have h2 := ih _ h1 ht
      exact ⟨h2.1, h2.2⟩

/-! ### indicator matrix -/

/-- What the loop leaves in `Hindptr`/`Hindices`, seen from cluster `i`. -/
theorem indicator_slice (it : Finset Nat → List Nat) (cl : List (Finset Nat)) (i : Nat)
    (hi : i < cl.length) :
    ((indicatorIndices it cl).take ((indicatorIndptr it cl).getD (i + 1) 0)).drop
      ((indicatorIndptr it cl).getD i 0) = it (cl.getD i ∅) := by
  have hptr : ∀ (cl : List (Finset Nat)) (i : Nat), i ≤ cl.length →
      (indicatorIndptr it cl).getD i 0 = ((cl.take i).flatMap it).length := by
    intro cl
    induction cl with
    | nil =>
      intro i hi
      simp at hi
      subst hi
      rfl
    | cons c cs ih =>
      intro i hi
      cases i with
      | zero => rfl
      | succ i =>
        have := ih i (by simpa using hi)
        simp only [indicatorIndptr, List.getD_cons_succ, List.take_succ_cons, List.flatMap_cons,
          List.length_append]
        rw [← this]
        have hl : (indicatorIndptr it cs).length = cs.length + 1 := by
          clear ih this hi
          induction cs with
          | nil => rfl
          | cons c cs ih => simp [indicatorIndptr, ih]
        have hi' : i < (indicatorIndptr it cs).length := by simp at hi; omega
        simp [List.getD_eq_getElem?_getD, hi']
  rw [hptr cl i (by omega), hptr cl (i + 1) (by omega)]
  unfold indicatorIndices
  have h1 : cl.flatMap it = (cl.take (i + 1)).flatMap it ++ (cl.drop (i + 1)).flatMap it := by
    rw [← List.flatMap_append, List.take_append_drop]
  rw [h1, List.take_left]
  have h2 : cl.take (i + 1) = cl.take i ++ [cl.getD i ∅] := by
    rw [List.take_add_one]
    simp [List.getD_eq_getElem?_getD, hi]
  rw [h2, List.flatMap_append, List.drop_left]
  simp

end Verif.Partition
