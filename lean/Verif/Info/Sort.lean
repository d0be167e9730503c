import Verif.Info.SortModel
import Mathlib.Data.List.Basic
import Mathlib.Data.List.Nodup
import Mathlib.Data.List.Perm.Subperm
import Mathlib.Data.List.MinMax
import Mathlib.Algebra.Order.BigOperators.Group.List
import Mathlib.Tactic.Linarith
import Mathlib.Tactic.Positivity

/-!
# Property C46: sorting clusters like a model
-/

set_option linter.unusedSimpArgs false

namespace Verif.Info

/-! ## Specification -/

/-- `argsort()[::-1]`: the positions, by decreasing value, ties in any order. -/
def Descending (desc : List ℚ → List Nat) : Prop :=
  ∀ l, (desc l).Perm (List.range l.length) ∧ (desc l).Pairwise fun a b => l.getD b 0 ≤ l.getD a 0

/-- The Jaccard similarity of two sets. -/
def jac (c m : Finset Nat) : ℚ := (c ∩ m).card / (c ∪ m).card

/-! ## Lemmas -/

theorem jac_nonneg (c m : Finset Nat) : 0 ≤ jac c m := by unfold jac; positivity

theorem jac_pos {c m : Finset Nat} : 0 < jac c m ↔ (c ∩ m).Nonempty := by
  unfold jac
  constructor
  · intro h
    by_contra h0
    rw [Finset.not_nonempty_iff_eq_empty] at h0
    rw [h0] at h
    simp at h
  · intro h
    have h1 : 0 < (c ∩ m).card := Finset.card_pos.2 h
    have h2 : (c ∩ m).card ≤ (c ∪ m).card :=
      Finset.card_le_card (Finset.inter_subset_left.trans Finset.subset_union_left)
    have h3 : (0 : ℚ) < (c ∩ m).card := by exact_mod_cast h1
    have h4 : (0 : ℚ) < (c ∪ m).card := by exact_mod_cast h1.trans_le h2
    exact div_pos h3 h4

theorem mapM_ok {α β ε : Type} {f : α → Except ε β} {g : α → β} : ∀ (l : List α), (∀ x ∈ l, f x = .ok (g x)) →
    l.mapM f = .ok (l.map g)
  | [], _ => rfl
  | a :: l, h => by
    rw [List.mapM_cons, h a (by simp), mapM_ok l fun x hx => h x (by simp [hx])]
    rfl

theorem matrix_ok {cs ms : List (Finset Nat)} (h : ∀ c ∈ cs, ∀ m ∈ ms, (c ∪ m).Nonempty) :
    similarityMatrix cs ms = .ok (cs.map fun c => ms.map (jac c)) := by
  apply mapM_ok
  intro c hc
  apply mapM_ok
  intro m hm
  unfold similarity
  rw [if_neg (Finset.card_pos.2 (h c hc m hm)).ne']
  rfl

theorem entry_eq {cs ms : List (Finset Nat)} {i j : Nat} (hi : i < cs.length) (hj : j < ms.length) :
    entry (cs.map fun c => ms.map (jac c)) i j = jac (cs.getD i ∅) (ms.getD j ∅) := by
  unfold entry
  simp [List.getD, hi, hj]

theorem foldl_append_new (P : Nat → Prop) [DecidablePred P] : ∀ (L new : List Nat), L.Nodup →
    L.foldl (fun new x => if P x ∧ x ∉ new then new ++ [x] else new) new =
      new ++ L.filter fun x => decide (P x ∧ x ∉ new)
  | [], new, _ => by simp
  | a :: L, new, h => by
    rw [List.nodup_cons] at h
    rw [List.foldl_cons, List.filter_cons]
    split
    · next hp =>
      rw [foldl_append_new P L _ h.2, if_pos (by simpa using hp), List.append_assoc, List.singleton_append]
      congr 2
      apply List.filter_congr
      intro x hx
      have hxa : x ≠ a := fun e => h.1 (e ▸ hx)
      simp [hxa]
    · next hp =>
      rw [foldl_append_new P L _ h.2, if_neg (by simpa using hp)]

theorem zip_map_foldl {α β : Type} (g : Nat → ℚ) (k : α → β → Nat → ℚ → α) (b : β) : ∀ (l : List Nat) (a : α),
    (l.zip (l.map g)).foldl (fun a p => k a b p.1 p.2) a = l.foldl (fun a x => k a b x (g x)) a
  | [], a => rfl
  | x :: l, a => by
    rw [List.map_cons, List.zip_cons_cons, List.foldl_cons, List.foldl_cons]
    exact zip_map_foldl g k b l _

/-- What a class adds: the remaining clusters `L`, in decreasing order of similarity, that reach
the threshold and are not there yet. -/
theorem classStep_spec {desc : List ℚ → List Nat} (hd : Descending desc) (thresh : ℚ) (M : List (List ℚ))
    {all : List Nat} (hne : all ≠ []) (hnd : all.Nodup) (new : List Nat) (cla : Nat) :
    ∃ (L : List Nat) (mx : ℚ), L.Perm all ∧ (L.Pairwise fun a b => entry M b cla ≤ entry M a cla) ∧
      (∀ x ∈ all, entry M x cla ≤ mx) ∧ (∃ x ∈ all, entry M x cla = mx) ∧
      classStep desc thresh M all new cla = .ok (if 0 < mx then
        new ++ L.filter fun x => decide (thresh ≤ entry M x cla / mx ∧ x ∉ new) else new) := by
  set col := all.map fun i => entry M i cla with hcol
  have hlen : col.length = all.length := by simp [hcol]
  obtain ⟨hp, hs⟩ := hd col
  have hval : ∀ k < all.length, col.getD k 0 = entry M (all.getD k 0) cla := by
    intro k hk
    simp [hcol, List.getD, hk]
  have hbound : ∀ k ∈ desc col, k < all.length := fun k hk => by
    have := hp.mem_iff.1 hk
    rwa [List.mem_range, hlen] at this
  have hL : ((desc col).map fun k => all.getD k 0).Perm all := by
    refine (hp.map _).trans (List.Perm.of_eq ?_)
    rw [hlen]
    apply List.ext_getElem
    · simp
    · intro i h1 h2
      simp [List.getD, h2]
  have hsc : (desc col).map (fun k => col.getD k 0) = (desc col).map fun k => entry M (all.getD k 0) cla :=
    List.map_congr_left fun k hk => hval k (hbound k hk)
  have hne' : (desc col).map (fun k => col.getD k 0) ≠ [] := by
    intro h0
    have hlen2 := congrArg List.length h0
    rw [List.length_map, hp.length_eq, List.length_range, hlen, List.length_nil] at hlen2
    exact hne (List.length_eq_zero_iff.1 hlen2)
  obtain ⟨mx, hmx⟩ : ∃ mx, ((desc col).map fun k => col.getD k 0).max? = some mx := by
    cases h : ((desc col).map fun k => col.getD k 0).max? with
    | none => exact absurd (List.max?_eq_none_iff.1 h) hne'
    | some mx => exact ⟨mx, rfl⟩
  have hmx' := hmx
  rw [List.max?_eq_some_iff] at hmx'
  have hmem : ∀ x ∈ all, entry M x cla ∈ (desc col).map fun k => col.getD k 0 := by
    intro x hx
    rw [hsc]
    obtain ⟨k, hk, he⟩ := List.mem_map.1 (hL.mem_iff.2 hx)
    exact List.mem_map.2 ⟨k, hk, by rw [he]⟩
  refine ⟨(desc col).map fun k => all.getD k 0, mx, hL, ?_, ?_, ?_, ?_⟩
  · rw [List.pairwise_map]
    refine List.Pairwise.imp_of_mem ?_ hs
    intro a b ha hb hab
    rwa [hval a (hbound a ha), hval b (hbound b hb)] at hab
  · intro x hx
    exact hmx'.2 _ (hmem x hx)
  · obtain ⟨k, hk, he⟩ := List.mem_map.1 hmx'.1
    rw [hval k (hbound k hk)] at he
    exact ⟨_, hL.mem_iff.1 (List.mem_map.2 ⟨k, hk, rfl⟩), he⟩
  · unfold classStep
    simp only [← hcol]
    rw [hmx]
    simp only
    split
    · congr 1
      rw [List.map_map, show ((fun x => x / mx) ∘ fun k => col.getD k 0) = fun k => col.getD k 0 / mx from rfl,
        zip_map_foldl (fun k => col.getD k 0 / mx)
        (fun new (all : List Nat) k s => if thresh ≤ s ∧ all.getD k 0 ∉ new then new ++ [all.getD k 0] else new) all,
        ← foldl_append_new (fun x => thresh ≤ entry M x cla / mx) _ _ (hL.nodup_iff.2 hnd), List.foldl_map]
      apply List.foldl_ext
      intro a k hk
      rw [hval k (hbound k hk)]
    · rfl

/-! ## One pass -/

/-- What a pass guarantees. -/
theorem pass_spec {desc : List ℚ → List Nat} (hd : Descending desc) (thresh : ℚ) (M : List (List ℚ))
    {all : List Nat} (hne : all ≠ []) (hnd : all.Nodup) (classes : List Nat) : ∀ (new : List Nat), new.Nodup →
    ∃ new', classes.foldlM (classStep desc thresh M all) new = .ok new' ∧ new'.Nodup ∧
      (∃ add, new' = new ++ add ∧ add ⊆ all) ∧
      (thresh ≤ 1 → (∃ x ∈ all, ∃ j ∈ classes, 0 < entry M x j) → ∃ x ∈ all, x ∈ new') ∧
      (1 < thresh → new' = new) := by
  induction classes with
  | nil => exact fun new h => ⟨new, rfl, h, ⟨[], by simp, by simp⟩, by simp, fun _ => rfl⟩
  | cons cla classes ih =>
    intro new hn
    obtain ⟨L, mx, hL, -, hle, ⟨x0, hx0, hx0m⟩, he⟩ := classStep_spec hd thresh M hne hnd new cla
    set new1 := if 0 < mx then new ++ L.filter fun x => decide (thresh ≤ entry M x cla / mx ∧ x ∉ new) else new with hnew1
    have hLn : L.Nodup := hL.nodup_iff.2 hnd
    have h1 : new1.Nodup := by
      rw [hnew1]
      split
      · refine List.nodup_append.2 ⟨hn, hLn.filter _, ?_⟩
        intro a ha b hb e
        subst e
        have := (List.mem_filter.1 hb).2
        simp only [decide_eq_true_eq] at this
        exact this.2 ha
      · exact hn
    obtain ⟨new', e', n', ⟨add, ha, hsub⟩, hprog, hstop⟩ := ih new1 h1
    refine ⟨new', ?_, n', ?_, ?_, ?_⟩
    · rw [List.foldlM_cons, he]
      exact e'
    · rw [ha, hnew1]
      split
      · refine ⟨(L.filter fun x => decide (thresh ≤ entry M x cla / mx ∧ x ∉ new)) ++ add, by simp, ?_⟩
        intro y hy
        rcases List.mem_append.1 hy with hy | hy
        · exact hL.mem_iff.1 (List.mem_filter.1 hy).1
        · exact hsub hy
      · exact ⟨add, rfl, hsub⟩
    · rintro ht ⟨x, hx, j, hj, hpos⟩
      by_cases hm : 0 < mx
      · refine ⟨x0, hx0, ?_⟩
        rw [ha]
        apply List.mem_append_left
        rw [hnew1, if_pos hm]
        by_cases hin : x0 ∈ new
        · exact List.mem_append_left _ hin
        · apply List.mem_append_right
          refine List.mem_filter.2 ⟨hL.mem_iff.2 hx0, ?_⟩
          simp only [decide_eq_true_eq]
          refine ⟨?_, hin⟩
          rw [hx0m, div_self hm.ne']
          exact ht
      · rcases List.mem_cons.1 hj with rfl | hj
        · exact absurd (lt_of_lt_of_le hpos (hle x hx)) hm
        · exact hprog ht ⟨x, hx, j, hj, hpos⟩
    · intro ht
      rw [hstop ht, hnew1]
      split
      · next hm =>
        have : (L.filter fun x => decide (thresh ≤ entry M x cla / mx ∧ x ∉ new)) = [] := by
          rw [List.filter_eq_nil_iff]
          intro y hy
          simp only [decide_eq_true_eq]
          rintro ⟨h2, -⟩
          have : entry M y cla / mx ≤ 1 := (div_le_one hm).2 (hle y (hL.mem_iff.1 hy))
          linarith
        rw [this, List.append_nil]
      · rfl

theorem loop_ends {desc : List ℚ → List Nat} (hd : Descending desc) {thresh : ℚ} (ht : thresh ≤ 1)
    (M : List (List ℚ)) (classes : Nat) {base : List Nat} (hb : base.Nodup)
    (hpos : ∀ x ∈ base, ∃ j ∈ List.range classes, 0 < entry M x j) :
    ∀ (fuel : Nat) (all new : List Nat), all.Nodup → new.Nodup → all ⊆ base → new ⊆ base →
      (∀ x ∈ base, x ∈ new ∨ x ∈ all) → (∀ x ∈ all, x ∉ new) → base.length ≤ new.length + fuel →
      ∃ r, sortLoop desc thresh M classes base.length fuel all new = .ok (some r) ∧ r.Perm base ∧ new <+: r := by
  have done : ∀ new : List Nat, new.Nodup → new ⊆ base → ¬ new.length < base.length → new.Perm base := by
    intro new hn hs hl
    exact (List.subperm_of_subset hn hs).perm_of_length_le (by omega)
  intro fuel
  induction fuel with
  | zero =>
    intro all new _ hn _ hs _ _ hl
    unfold sortLoop
    rw [if_neg (by omega)]
    exact ⟨new, rfl, done new hn hs (by omega), List.prefix_refl _⟩
  | succ fuel ih =>
    intro all new ha hn has hs hcov hdis hl
    unfold sortLoop
    split
    · next hlt =>
      have hne : all ≠ [] := by
        rintro rfl
        have : base ⊆ new := fun x hx => (hcov x hx).resolve_right (by simp)
        have := (List.subperm_of_subset hb this).length_le
        omega
      obtain ⟨new', e, hn', ⟨add, hadd, hsub⟩, hprog, -⟩ :=
        pass_spec hd thresh M hne ha (List.range classes) new hn
      rw [e]
      simp only
      obtain ⟨x, hx⟩ := List.exists_mem_of_ne_nil all hne
      obtain ⟨j, hj, hp⟩ := hpos x (has hx)
      obtain ⟨y, hy, hy'⟩ := hprog ht ⟨x, hx, j, hj, hp⟩
      have hgrow : new.length < new'.length := by
        rw [hadd, List.length_append]
        have : add ≠ [] := by
          rintro rfl
          rw [hadd, List.append_nil] at hy'
          exact hdis y hy hy'
        have := List.length_pos_iff.2 this
        omega
      obtain ⟨r, er, hr, hpre⟩ := ih (all.filter fun i => decide (i ∉ new')) new' (ha.filter _) hn'
        (fun z hz => has (List.mem_filter.1 hz).1)
        (by
          rw [hadd]
          intro z hz
          rcases List.mem_append.1 hz with hz | hz
          · exact hs hz
          · exact has (hsub hz))
        (by
          intro z hz
          by_cases hin : z ∈ new'
          · exact .inl hin
          · rcases hcov z hz with h | h
            · exact absurd (by rw [hadd]; exact List.mem_append_left _ h) hin
            · exact .inr (List.mem_filter.2 ⟨h, by simpa using hin⟩))
        (by
          intro z hz
          simpa using (List.mem_filter.1 hz).2)
        (by omega)
      refine ⟨r, er, hr, ?_⟩
      exact (by rw [hadd]; exact List.prefix_append _ _ : new <+: new').trans hpre
    · next hlt => exact ⟨new, rfl, done new hn hs hlt, List.prefix_refl _⟩

theorem loop_stuck {desc : List ℚ → List Nat} (hd : Descending desc) {thresh : ℚ} (ht : 1 < thresh)
    (M : List (List ℚ)) (classes : Nat) {total : Nat} (hpos : 0 < total) : ∀ (fuel : Nat) (all : List Nat),
    all.Nodup → all ≠ [] → sortLoop desc thresh M classes total fuel all [] = .ok none := by
  intro fuel
  induction fuel with
  | zero =>
    intro all _ _
    unfold sortLoop
    rw [if_pos (by simpa using hpos)]
  | succ fuel ih =>
    intro all ha hne
    unfold sortLoop
    rw [if_pos (by simpa using hpos)]
    obtain ⟨new', e, -, -, -, hs⟩ := pass_spec hd thresh M hne ha (List.range classes) [] List.nodup_nil
    rw [e, hs ht]
    simp only
    rw [List.filter_eq_self.2 (by simp)]
    exact ih all ha hne

/-! ## The two kinds of clusters -/

theorem row_sum_zero {c : Finset Nat} {ms : List (Finset Nat)} :
    (ms.map (jac c)).sum = 0 ↔ ∀ m ∈ ms, c ∩ m = ∅ := by
  constructor
  · intro h m hm
    by_contra h0
    have h1 := jac_pos.2 (Finset.nonempty_iff_ne_empty.2 h0)
    have h2 := List.single_le_sum (fun x hx => by
      obtain ⟨m, _, rfl⟩ := List.mem_map.1 hx
      exact jac_nonneg c m) _ (List.mem_map.2 ⟨m, hm, rfl⟩)
    linarith
  · intro h
    apply List.sum_eq_zero
    intro x hx
    obtain ⟨m, hm, rfl⟩ := List.mem_map.1 hx
    unfold jac
    rw [h m hm]
    simp

/-- The numbers of the clusters that meet no model cluster, and of the others. -/
theorem split_spec {cs ms : List (Finset Nat)} :
    let M := cs.map fun c => ms.map (jac c)
    let zero := (List.range M.length).filter fun i => decide ((M.getD i []).sum = 0)
    let all := (List.range M.length).filter fun i => decide (i ∉ zero)
    (∀ i, i ∈ zero ↔ i < cs.length ∧ ∀ m ∈ ms, cs.getD i ∅ ∩ m = ∅) ∧
    (∀ i, i ∈ all ↔ i < cs.length ∧ ∃ m ∈ ms, (cs.getD i ∅ ∩ m).Nonempty) ∧
    (all ++ zero).Perm (List.range cs.length) ∧ all.Nodup ∧ zero.Nodup := by
  intro M zero all
  have hM : M.length = cs.length := by simp [M]
  have hz : ∀ i, i ∈ zero ↔ i < cs.length ∧ ∀ m ∈ ms, cs.getD i ∅ ∩ m = ∅ := by
    intro i
    rw [List.mem_filter, List.mem_range, hM]
    constructor
    · rintro ⟨h1, h2⟩
      simp only [decide_eq_true_eq] at h2
      have : M.getD i [] = ms.map (jac (cs.getD i ∅)) := by simp [M, List.getD, h1]
      rw [this] at h2
      exact ⟨h1, row_sum_zero.1 h2⟩
    · rintro ⟨h1, h2⟩
      have : M.getD i [] = ms.map (jac (cs.getD i ∅)) := by simp [M, List.getD, h1]
      simp only [decide_eq_true_eq]
      rw [this]
      exact ⟨h1, row_sum_zero.2 h2⟩
  have hzn : zero.Nodup := List.nodup_range.filter _
  have han : all.Nodup := List.nodup_range.filter _
  have ha : ∀ i, i ∈ all ↔ i < cs.length ∧ i ∉ zero := by
    intro i
    rw [List.mem_filter, List.mem_range, hM]
    simp
  refine ⟨hz, ?_, ?_, han, hzn⟩
  · intro i
    rw [ha, hz]
    constructor
    · rintro ⟨h1, h2⟩
      refine ⟨h1, ?_⟩
      by_contra h3
      apply h2
      refine ⟨h1, fun m hm => ?_⟩
      by_contra h4
      exact h3 ⟨m, hm, Finset.nonempty_iff_ne_empty.2 h4⟩
    · rintro ⟨h1, m, hm, h2⟩
      exact ⟨h1, fun h3 => h2.ne_empty (h3.2 m hm)⟩
  · refine (List.perm_ext_iff_of_nodup (List.nodup_append.2 ⟨han, hzn, ?_⟩) List.nodup_range).2 fun i => ?_
    · intro a h1 b h2 e
      exact ((ha a).1 h1).2 (e ▸ h2)
    · rw [List.mem_append, ha, hz, List.mem_range]
      constructor
      · rintro (h | h)
        · exact h.1
        · exact h.1
      · intro h
        by_cases h2 : ∀ m ∈ ms, cs.getD i ∅ ∩ m = ∅
        · exact .inr ⟨h, h2⟩
        · exact .inl ⟨h, fun h3 => h2 h3.2⟩

theorem map_getD_range (cs : List (Finset Nat)) : ((List.range cs.length).map fun i => cs.getD i ∅) = cs := by
  apply List.ext_getElem
  · simp
  · intro i h1 h2
    simp [List.getD, h2]

/-- The result, from the end of the loop. -/
theorem sortLike_eq {desc : List ℚ → List Nat} (hd : Descending desc) {cs ms : List (Finset Nat)} (hne : cs ≠ [])
    (hu : ∀ c ∈ cs, ∀ m ∈ ms, (c ∪ m).Nonempty) {thresh : ℚ} (ht : thresh ≤ 1) {fuel : Nat}
    (hf : cs.length ≤ fuel) :
    ∃ all zero new, all.Nodup ∧ (∀ i, i ∈ zero ↔ i < cs.length ∧ ∀ m ∈ ms, cs.getD i ∅ ∩ m = ∅) ∧
      (∀ i, i ∈ all ↔ i < cs.length ∧ ∃ m ∈ ms, (cs.getD i ∅ ∩ m).Nonempty) ∧
      sortLoop desc thresh (cs.map fun c => ms.map (jac c)) ms.length all.length fuel all [] = .ok (some new) ∧
      new.Perm all ∧ (new ++ zero).Perm (List.range cs.length) ∧
      sortLike desc fuel cs ms thresh = .ok (some ((new ++ zero).map fun i => cs.getD i ∅)) := by
  obtain ⟨hz, ha, hp, han, hzn⟩ := split_spec (cs := cs) (ms := ms)
  set M := cs.map fun c => ms.map (jac c) with hM
  set zero := (List.range M.length).filter fun i => decide ((M.getD i []).sum = 0) with hzero
  set all := (List.range M.length).filter fun i => decide (i ∉ zero) with hall
  have hlen : all.length + zero.length = cs.length := by
    have := hp.length_eq
    rwa [List.length_append, List.length_range] at this
  obtain ⟨new, e, hperm, -⟩ := loop_ends hd ht M ms.length han (by
    intro x hx
    obtain ⟨h1, m, hm, h2⟩ := (ha x).1 hx
    obtain ⟨j, hj, rfl⟩ := List.getElem_of_mem hm
    refine ⟨j, List.mem_range.2 hj, ?_⟩
    rw [hM, entry_eq h1 hj, jac_pos]
    have : ms.getD j ∅ = ms[j] := by simp [List.getD, hj]
    rwa [this]) fuel all [] han List.nodup_nil (List.Subset.refl _) (by simp) (fun x hx => .inr hx) (by simp)
    (by simp; omega)
  refine ⟨all, zero, new, han, hz, ha, e, hperm, (hperm.append_right _).trans hp, ?_⟩
  unfold sortLike
  rw [matrix_ok hu]
  simp only
  rw [← hM, if_neg (by rw [hM]; simpa using hne), ← hzero, ← hall]
  have : cs.length - zero.length = all.length := by omega
  rw [this, e]

/-! ## Property C46 -/

/-- **C46**.  With a threshold of at most 1 the function ends, after at most as many passes as
there are clusters, and returns the clusters it was given, in a different order; those that share
no node with the model come last, in their order. -/
theorem C46_permutation {desc : List ℚ → List Nat} (hd : Descending desc) {cs ms : List (Finset Nat)} (hne : cs ≠ [])
    (hu : ∀ c ∈ cs, ∀ m ∈ ms, (c ∪ m).Nonempty) {thresh : ℚ} (ht : thresh ≤ 1) :
    ∃ r, (∀ fuel, cs.length ≤ fuel → sortLike desc fuel cs ms thresh = .ok (some r)) ∧ r.Perm cs ∧
      ∃ l1 l2, r = l1 ++ l2 ∧ (∀ c ∈ l1, ∃ m ∈ ms, (c ∩ m).Nonempty) ∧ (∀ c ∈ l2, ∀ m ∈ ms, c ∩ m = ∅) := by
  obtain ⟨all, zero, new, han, hz, ha, e, hperm, hp, hr⟩ := sortLike_eq hd hne hu ht (le_refl cs.length)
  refine ⟨_, ?_, ?_, new.map (fun i => cs.getD i ∅), zero.map (fun i => cs.getD i ∅), List.map_append, ?_, ?_⟩
  · have mono : ∀ (fuel k : Nat) (all new r : List Nat) (M : List (List ℚ)) (classes total : Nat),
        sortLoop desc thresh M classes total fuel all new = .ok (some r) →
        sortLoop desc thresh M classes total (fuel + k) all new = .ok (some r) := by
      intro fuel k
      induction fuel with
      | zero =>
        intro all new r M classes total h
        unfold sortLoop at h
        split at h
        · cases h
        · next hlt =>
          cases k with
          | zero => unfold sortLoop; rw [if_neg hlt]; exact h
          | succ k => rw [Nat.zero_add]; unfold sortLoop; rw [if_neg hlt]; exact h
      | succ fuel ih =>
        intro all new r M classes total h
        have : fuel + 1 + k = (fuel + k) + 1 := by omega
        rw [this]
        unfold sortLoop at h ⊢
        split
        · next hlt =>
          rw [if_pos hlt] at h
          split
          · next e' => rw [e'] at h; cases h
          · next e' => rw [e'] at h; exact ih _ _ _ _ _ _ h
        · next hlt => rw [if_neg hlt] at h; exact h
    intro fuel hf
    obtain ⟨all', zero', new', -, hz', ha', e', -, -, hr'⟩ := sortLike_eq hd hne hu ht hf
    have hl := hr
    unfold sortLike at hl hr' ⊢
    rw [matrix_ok hu] at hl hr' ⊢
    simp only at hl hr' ⊢
    split at hl
    · cases hl
    · next hnil =>
      rw [if_neg hnil] at hr' ⊢
      split at hl
      · cases hl
      · cases hl
      · next e2 =>
        have := mono cs.length (fuel - cs.length) _ _ _ _ _ _ e2
        rw [show cs.length + (fuel - cs.length) = fuel by omega] at this
        rw [this]
        exact hl
  · exact (hp.map _).trans (List.Perm.of_eq (map_getD_range cs))
  · intro c hc
    obtain ⟨i, hi, rfl⟩ := List.mem_map.1 hc
    exact ((ha i).1 (hperm.mem_iff.1 hi)).2
  · intro c hc
    obtain ⟨i, hi, rfl⟩ := List.mem_map.1 hc
    exact ((hz i).1 hi).2

/-- **C46** needs the threshold: above 1 the function never ends, unless no cluster shares a
node with the model. -/
theorem C46_diverges {desc : List ℚ → List Nat} (hd : Descending desc) {cs ms : List (Finset Nat)}
    (hu : ∀ c ∈ cs, ∀ m ∈ ms, (c ∪ m).Nonempty) (hx : ∃ c ∈ cs, ∃ m ∈ ms, (c ∩ m).Nonempty) {thresh : ℚ}
    (ht : 1 < thresh) (fuel : Nat) : sortLike desc fuel cs ms thresh = .ok none := by
  obtain ⟨hz, ha, hp, han, hzn⟩ := split_spec (cs := cs) (ms := ms)
  unfold sortLike
  rw [matrix_ok hu]
  simp only
  set M := cs.map fun c => ms.map (jac c) with hM
  set zero := (List.range M.length).filter fun i => decide ((M.getD i []).sum = 0) with hzero
  set all := (List.range M.length).filter fun i => decide (i ∉ zero) with hall
  have hne : all ≠ [] := by
    obtain ⟨c, hc, m, hm, h⟩ := hx
    obtain ⟨i, hi, rfl⟩ := List.getElem_of_mem hc
    have : cs.getD i ∅ = cs[i] := by simp [List.getD, hi]
    exact List.ne_nil_of_mem ((ha i).2 ⟨hi, m, hm, by rwa [this]⟩)
  have hlen : all.length + zero.length = cs.length := by
    have := hp.length_eq
    rwa [List.length_append, List.length_range] at this
  have hpos := List.length_pos_iff.2 hne
  rw [if_neg (by
    rw [hM]
    intro h0
    have := congrArg List.length h0
    rw [List.length_map, List.length_nil] at this
    omega), loop_stuck hd ht M ms.length (by omega) fuel all han hne]

theorem jac_self {c : Finset Nat} (h : c.Nonempty) : jac c c = 1 := by
  unfold jac
  rw [Finset.inter_self, Finset.union_self]
  have : (0 : ℚ) < c.card := by exact_mod_cast Finset.card_pos.2 h
  exact div_self this.ne'

/-- **C46**.  If the clusters to sort are the clusters of the model in a different order, the
result is the model. -/
theorem C46_same_clusters {desc : List ℚ → List Nat} (hd : Descending desc) {cs ms : List (Finset Nat)}
    (hne : cs ≠ []) (hperm : cs.Perm ms) (hdis : ms.Pairwise Disjoint) (hemp : ∀ m ∈ ms, m.Nonempty) {thresh : ℚ}
    (h0 : 0 < thresh) (ht : thresh ≤ 1) {fuel : Nat} (hf : cs.length ≤ fuel) :
    sortLike desc fuel cs ms thresh = .ok (some ms) := by
  have hu : ∀ c ∈ cs, ∀ m ∈ ms, (c ∪ m).Nonempty :=
    fun c _ m hm => (hemp m hm).mono Finset.subset_union_right
  obtain ⟨all, zero, new, han, hz, ha, e, hnew, hp, hr⟩ := sortLike_eq hd hne hu ht hf
  rw [hr]
  have hmnd : ms.Nodup := by
    refine List.Pairwise.imp_of_mem ?_ hdis
    intro a b ha _ hab e
    subst e
    exact (hemp a ha).ne_empty (disjoint_self.1 hab)
  have hcnd : cs.Nodup := hperm.nodup_iff.2 hmnd
  have hmem : ∀ i, i < cs.length → cs.getD i ∅ ∈ ms := by
    intro i hi
    have : cs.getD i ∅ = cs[i] := by simp [List.getD, hi]
    rw [this]
    exact hperm.mem_iff.1 (List.getElem_mem hi)
  have hzn : zero = [] := by
    rw [List.eq_nil_iff_forall_not_mem]
    intro i hi
    obtain ⟨h1, h2⟩ := (hz i).1 hi
    have := h2 _ (hmem i h1)
    rw [Finset.inter_self] at this
    exact (hemp _ (hmem i h1)).ne_empty this
  have hal : ∀ i, i ∈ all ↔ i < cs.length := by
    intro i
    rw [ha]
    refine ⟨fun h => h.1, fun h => ⟨h, _, hmem i h, ?_⟩⟩
    rw [Finset.inter_self]
    exact hemp _ (hmem i h)
  have hallen : all.length = cs.length := by
    have : all.Perm (List.range cs.length) :=
      (List.perm_ext_iff_of_nodup han List.nodup_range).2 fun i => by rw [hal, List.mem_range]
    rw [this.length_eq, List.length_range]
  have hlen := hperm.length_eq
  have hcpos := List.length_pos_iff.2 hne
  set M := cs.map fun c => ms.map (jac c) with hM
  -- similarity of a cluster to a class
  have hent : ∀ i, i < cs.length → ∀ j, j < ms.length →
      entry M i j = if cs.getD i ∅ = ms.getD j ∅ then 1 else 0 := by
    intro i hi j hj
    rw [hM, entry_eq hi hj]
    have hmj : ms.getD j ∅ ∈ ms := by
      have : ms.getD j ∅ = ms[j] := by simp [List.getD, hj]
      rw [this]
      exact List.getElem_mem hj
    split
    · next h => rw [h]; exact jac_self (hemp _ hmj)
    · next h =>
      obtain ⟨k, hk, hke⟩ := List.getElem_of_mem (hmem i hi)
      have hj' : ms.getD j ∅ = ms[j] := by simp [List.getD, hj]
      have hkj : k ≠ j := by
        rintro rfl
        exact h (by rw [← hke, hj'])
      have : Disjoint (cs.getD i ∅) (ms.getD j ∅) := by
        rw [← hke, hj']
        rcases Nat.lt_or_gt_of_ne hkj with h' | h'
        · exact List.pairwise_iff_getElem.1 hdis k j hk hj h'
        · exact (List.pairwise_iff_getElem.1 hdis j k hj hk h').symm
      unfold jac
      rw [Finset.disjoint_iff_inter_eq_empty.1 this]
      simp
  have hpass : ∀ k, k ≤ ms.length → ∃ new, (List.range k).foldlM (classStep desc thresh M all) [] = .ok new ∧
      new.map (fun i => cs.getD i ∅) = ms.take k := by
    intro k
    induction k with
    | zero => exact fun _ => ⟨[], rfl, by simp⟩
    | succ k ih =>
      intro hk
      obtain ⟨new, e1, e2⟩ := ih (by omega)
      have hk' : k < ms.length := by omega
      have hgk : ms.getD k ∅ = ms[k] := by simp [List.getD, hk']
      obtain ⟨L, mx, hL, -, hle, ⟨x, hx, hxm⟩, e3⟩ :=
        classStep_spec hd thresh M (List.length_pos_iff.1 (by omega : 0 < all.length)) han new k
      obtain ⟨i, hi, hie⟩ := List.getElem_of_mem (hperm.mem_iff.2 (List.getElem_mem hk'))
      have hgi : cs.getD i ∅ = cs[i] := by simp [List.getD, hi]
      have hii : cs.getD i ∅ = ms.getD k ∅ := by rw [hgi, hgk, hie]
      have hmx : mx = 1 := by
        apply le_antisymm
        · rw [← hxm, hent x ((hal x).1 hx) k hk']
          split <;> norm_num
        · have := hle i ((hal i).2 hi)
          rwa [hent i hi k hk', if_pos hii] at this
      have hnot : i ∉ new := by
        intro hin
        have : cs.getD i ∅ ∈ ms.take k := by
          rw [← e2]
          exact List.mem_map.2 ⟨i, hin, rfl⟩
        rw [hii, hgk] at this
        obtain ⟨a, ha', hae⟩ := List.getElem_of_mem this
        rw [List.getElem_take] at hae
        have := (List.Nodup.getElem_inj_iff hmnd).1 hae
        rw [List.length_take] at ha'
        omega
      have hfil : L.filter (fun x => decide (thresh ≤ entry M x k / mx ∧ x ∉ new)) = [i] := by
        apply List.perm_singleton.1
        refine (List.perm_ext_iff_of_nodup ((hL.nodup_iff.2 han).filter _) (List.nodup_singleton i)).2 fun y => ?_
        rw [List.mem_filter, hL.mem_iff, hal, List.mem_singleton]
        simp only [decide_eq_true_eq]
        constructor
        · rintro ⟨hy, hth, -⟩
          rw [hent y hy k hk', hmx] at hth
          by_cases hyk : cs.getD y ∅ = ms.getD k ∅
          · rw [← hii] at hyk
            have hgy : cs.getD y ∅ = cs[y] := by simp [List.getD, hy]
            rw [hgy, hgi] at hyk
            exact (List.Nodup.getElem_inj_iff hcnd).1 hyk
          · rw [if_neg hyk] at hth
            norm_num at hth
            linarith
        · rintro rfl
          refine ⟨hi, ?_, hnot⟩
          rw [hent y hi k hk', if_pos hii, hmx, div_one]
          exact ht
      refine ⟨new ++ [i], ?_, ?_⟩
      · rw [List.range_succ, List.foldlM_append, e1]
        show ([k].foldlM (classStep desc thresh M all) new) = _
        rw [List.foldlM_cons, e3, hmx, if_pos one_pos, ← hmx, hfil]
        rfl
      · rw [List.map_append, e2, List.map_singleton, hii, hgk, List.take_succ_eq_append_getElem hk']
  obtain ⟨n1, e1, e2⟩ := hpass ms.length le_rfl
  rw [List.take_length] at e2
  have hn1 : n1.length = cs.length := by
    have := congrArg List.length e2
    rw [List.length_map] at this
    omega
  have : new = n1 := by
    obtain ⟨f, rfl⟩ : ∃ f, fuel = f + 1 := ⟨fuel - 1, by omega⟩
    unfold sortLoop at e
    rw [if_pos (by simp; omega), e1] at e
    simp only at e
    cases f with
    | zero =>
      unfold sortLoop at e
      rw [if_neg (by omega)] at e
      cases e; rfl
    | succ f =>
      unfold sortLoop at e
      rw [if_neg (by omega)] at e
      cases e; rfl
  rw [this, hzn, List.append_nil, e2]

/-- **C46**.  The first cluster of the result is most similar to the first cluster of the
model, if any cluster shares a node with that one. -/
theorem C46_first {desc : List ℚ → List Nat} (hd : Descending desc) {cs : List (Finset Nat)} {m : Finset Nat}
    {ms : List (Finset Nat)} (hu : ∀ c ∈ cs, ∀ m' ∈ m :: ms, (c ∪ m').Nonempty) {thresh : ℚ} (ht : thresh ≤ 1)
    (hx : ∃ c ∈ cs, (c ∩ m).Nonempty) {fuel : Nat} (hf : cs.length ≤ fuel) :
    ∃ c r, sortLike desc fuel cs (m :: ms) thresh = .ok (some (c :: r)) ∧ ∀ c' ∈ cs, jac c' m ≤ jac c m := by
  obtain ⟨c0, hc0, h0⟩ := hx
  have hne : cs ≠ [] := List.ne_nil_of_mem hc0
  obtain ⟨all, zero, new, han, hz, ha, e, hnew, hp, hr⟩ := sortLike_eq hd hne hu ht hf
  set M := cs.map fun c => (m :: ms).map (jac c) with hM
  have hent : ∀ i, i < cs.length → entry M i 0 = jac (cs.getD i ∅) m := by
    intro i hi
    rw [hM, entry_eq hi (by simp)]
    rfl
  obtain ⟨i0, hi0, rfl⟩ := List.getElem_of_mem hc0
  have hg0 : cs.getD i0 ∅ = cs[i0] := by simp [List.getD, hi0]
  have hi0a : i0 ∈ all := (ha i0).2 ⟨hi0, m, by simp, by rwa [hg0]⟩
  have halne : all ≠ [] := List.ne_nil_of_mem hi0a
  obtain ⟨L, mx, hL, hsort, hle, ⟨x, hxa, hxm⟩, e3⟩ := classStep_spec hd thresh M halne han [] 0
  have hmx : 0 < mx := by
    have := hle i0 hi0a
    rw [hent i0 hi0, hg0] at this
    exact lt_of_lt_of_le (jac_pos.2 h0) this
  have hLne : L ≠ [] := by
    rintro rfl
    exact halne (List.nil_perm.1 hL)
  obtain ⟨b, L', rfl⟩ := List.exists_cons_of_ne_nil hLne
  have hba : b ∈ all := hL.mem_iff.1 (by simp)
  have hbm : entry M b 0 = mx := by
    apply le_antisymm (hle b hba)
    rw [← hxm]
    rcases List.mem_cons.1 (hL.mem_iff.2 hxa) with rfl | h
    · exact le_rfl
    · exact (List.pairwise_cons.1 hsort).1 x h
  have hbl : b < cs.length := ((ha b).1 hba).1
  -- after the first class the list starts with b
  rw [if_pos hmx, List.filter_cons, if_pos (by
    simp only [decide_eq_true_eq]
    refine ⟨?_, by simp⟩
    rw [hbm, div_self hmx.ne']
    exact ht)] at e3
  rw [List.nil_append] at e3
  set new1 := b :: L'.filter fun x => decide (thresh ≤ entry M x 0 / mx ∧ x ∉ []) with hnew1
  have hn1 : new1.Nodup := by
    have := hL.nodup_iff.2 han
    rw [List.nodup_cons] at this
    rw [hnew1, List.nodup_cons]
    exact ⟨fun h => this.1 (List.mem_filter.1 h).1, this.2.filter _⟩
  obtain ⟨n2, e4, hn2, ⟨add, hadd, haddsub⟩, -, -⟩ :=
    pass_spec hd thresh M halne han ((List.range ms.length).map Nat.succ) new1 hn1
  have hpass : (List.range (m :: ms).length).foldlM (classStep desc thresh M all) [] = .ok n2 := by
    rw [List.length_cons, List.range_succ_eq_map, List.foldlM_cons, e3]
    exact e4
  have hfpos : 0 < fuel := by
    have := List.length_pos_iff.2 hne
    omega
  obtain ⟨f, rfl⟩ : ∃ f, fuel = f + 1 := ⟨fuel - 1, by omega⟩
  have hpre : n2 <+: new := by
    have e' := e
    unfold sortLoop at e'
    rw [if_pos (by simpa using List.length_pos_iff.2 halne), hpass] at e'
    simp only at e'
    have hallen : all.length ≤ cs.length := by
      have h1 := hp.length_eq
      have h2 := hnew.length_eq
      rw [List.length_append, List.length_range] at h1
      omega
    have hn2len : 1 ≤ n2.length := by
      rw [hadd, hnew1]
      simp
    have hn2sub : n2 ⊆ all := by
      rw [hadd]
      intro z hz
      rcases List.mem_append.1 hz with hz | hz
      · rw [hnew1] at hz
        rcases List.mem_cons.1 hz with rfl | hz
        · exact hba
        · exact hL.mem_iff.1 (List.mem_cons_of_mem _ (List.mem_filter.1 hz).1)
      · exact haddsub hz
    obtain ⟨r, er, -, hpre⟩ := loop_ends hd ht M (m :: ms).length han (by
      intro x hx
      obtain ⟨h1, m', hm', h2⟩ := (ha x).1 hx
      obtain ⟨j, hj, rfl⟩ := List.getElem_of_mem hm'
      refine ⟨j, List.mem_range.2 hj, ?_⟩
      rw [hM, entry_eq h1 hj, jac_pos]
      have : (m :: ms).getD j ∅ = (m :: ms)[j] := by
        rw [List.getD, List.getElem?_eq_getElem hj]; rfl
      rwa [this]) f (all.filter fun i => decide (i ∉ n2)) n2 (han.filter _) hn2
      (fun z hz => (List.mem_filter.1 hz).1) hn2sub (by
      intro z hz
      by_cases hin : z ∈ n2
      · exact .inl hin
      · exact .inr (List.mem_filter.2 ⟨hz, by simpa using hin⟩)) (by
      intro z hz
      simpa using (List.mem_filter.1 hz).2) (by omega)
    rw [er] at e'
    cases e'
    exact hpre
  obtain ⟨tl, htl⟩ := hpre
  refine ⟨cs.getD b ∅, ((L'.filter fun x => decide (thresh ≤ entry M x 0 / mx ∧ x ∉ [])) ++ add ++ tl ++ zero).map
    fun i => cs.getD i ∅, ?_, ?_⟩
  · rw [hr, ← htl, hadd, hnew1]
    simp
  · intro c' hc'
    obtain ⟨j, hj, rfl⟩ := List.getElem_of_mem hc'
    have hgj : cs.getD j ∅ = cs[j] := by simp [List.getD, hj]
    by_cases hja : j ∈ all
    · have := hle j hja
      rwa [← hbm, hent j hj, hent b hbl, hgj] at this
    · have hzero : cs[j] ∩ m = ∅ := by
        by_contra h
        exact hja ((ha j).2 ⟨hj, m, by simp, by rw [hgj]; exact Finset.nonempty_iff_ne_empty.2 h⟩)
      have : jac cs[j] m = 0 := by
        unfold jac
        rw [hzero]
        simp
      rw [this]
      exact jac_nonneg _ _

/-- A list of computations with a single kind of failure. -/
theorem mapM_fails {α β ε : Type} (f : α → Except ε β) (e : ε) (h : ∀ a e', f a = .error e' → e' = e)
    (l : List α) (hx : ∃ a ∈ l, f a = .error e) : l.mapM f = .error e := by
  induction l with
  | nil => simp at hx
  | cons a l ih =>
    rw [List.mapM_cons]
    cases ha : f a with
    | error e' => rw [h a e' ha]; rfl
    | ok b =>
      obtain ⟨c, hc, hce⟩ := hx
      rcases List.mem_cons.1 hc with rfl | hc
      · rw [ha] at hce; cases hce
      · have := ih ⟨c, hc, hce⟩
        simp only [this]
        rfl

/-- A computation on a list fails only as one of its elements does. -/
theorem mapM_error {α β ε : Type} (f : α → Except ε β) (e : ε) (l : List α)
    (h : l.mapM f = .error e) : ∃ a ∈ l, f a = .error e := by
  induction l with
  | nil => cases h
  | cons a l ih =>
    rw [List.mapM_cons] at h
    cases ha : f a with
    | error e' =>
      rw [ha] at h
      cases h
      exact ⟨a, by simp, ha⟩
    | ok b =>
      rw [ha] at h
      cases hm : l.mapM f with
      | error e' =>
        simp only [hm] at h
        cases h
        obtain ⟨c, hc, hce⟩ := ih hm
        exact ⟨c, by simp [hc], hce⟩
      | ok r =>
        simp only [hm] at h
        cases h

/-- **C46**: the exact conditions of failure: nothing to sort, or an empty cluster in both
lists. -/
theorem C46_failures {desc : List ℚ → List Nat} (hd : Descending desc) (cs ms : List (Finset Nat)) {thresh : ℚ}
    (ht : thresh ≤ 1) {fuel : Nat} (hf : cs.length ≤ fuel) (e : SortErr) :
    sortLike desc fuel cs ms thresh = .error e ↔
      (e = .axisError ∧ cs = []) ∨ (e = .zeroDivision ∧ ∅ ∈ cs ∧ ∅ ∈ ms) := by
  by_cases hc : cs = []
  · subst hc
    have : sortLike desc fuel [] ms thresh = .error .axisError := rfl
    rw [this]
    constructor
    · intro h; cases h; exact Or.inl ⟨rfl, rfl⟩
    · rintro (⟨rfl, _⟩ | ⟨_, h, _⟩)
      · rfl
      · simp at h
  · by_cases hu : ∀ c ∈ cs, ∀ m ∈ ms, (c ∪ m).Nonempty
    · obtain ⟨r, hr, _⟩ := C46_permutation hd hc hu ht
      rw [hr fuel hf]
      constructor
      · intro h; cases h
      · rintro (⟨_, h⟩ | ⟨_, h1, h2⟩)
        · exact absurd h hc
        · simpa using hu ∅ h1 ∅ h2
    · push Not at hu
      obtain ⟨c, h1, m, h2, h3⟩ := hu
      obtain ⟨rfl, rfl⟩ := Finset.union_eq_empty.1 (Finset.not_nonempty_iff_eq_empty.1 (by simpa using h3))
      have hs : ∀ a b e', similarity a b = .error e' → e' = .zeroDivision := by
        intro a b e' h
        unfold similarity at h
        split at h
        · cases h; rfl
        · cases h
      have hM : similarityMatrix cs ms = .error .zeroDivision := by
        unfold similarityMatrix
        refine mapM_fails _ _ (fun a e' h => ?_) cs ⟨∅, h1, mapM_fails _ _ (hs ∅) ms ⟨∅, h2, rfl⟩⟩
        obtain ⟨b, _, hb⟩ := mapM_error _ _ _ h
        exact hs a b e' hb
      have : sortLike desc fuel cs ms thresh = .error .zeroDivision := by
        unfold sortLike
        rw [hM]
      rw [this]
      constructor
      · intro h; cases h; exact Or.inr ⟨rfl, h1, h2⟩
      · rintro (⟨_, h⟩ | ⟨rfl, _⟩)
        · exact absurd h hc
        · rfl

/-- Sorting the positions by value is an admissible order. -/
def sortedDesc (l : List ℚ) : List Nat := (List.range l.length).mergeSort fun a b => decide (l.getD b 0 ≤ l.getD a 0)

theorem sortedDesc_descending : Descending sortedDesc := by
  intro l
  refine ⟨List.mergeSort_perm _ _, ?_⟩
  have := List.pairwise_mergeSort (le := fun a b : Nat => decide (l.getD b 0 ≤ l.getD a 0))
    (fun a b c h1 h2 => by
      simp only [decide_eq_true_eq] at *
      exact h2.trans h1)
    (fun a b => by
      simp only [Bool.or_eq_true, decide_eq_true_eq]
      exact (le_total _ _)) (List.range l.length)
  exact this.imp fun h => of_decide_eq_true h

example : Descending sortedDesc ∧ (∀ c ∈ [({0, 1} : Finset Nat), {2}, {7}], ∀ m ∈ [({2, 3} : Finset Nat), {0}], (c ∪ m).Nonempty) ∧
    (∃ c ∈ [({0, 1} : Finset Nat), {2}, {7}], (c ∩ {2, 3}).Nonempty) ∧
    [({0, 1} : Finset Nat), {2}].Perm [{2}, {0, 1}] ∧ [({2} : Finset Nat), {0, 1}].Pairwise Disjoint ∧
    (∀ m ∈ [({2} : Finset Nat), {0, 1}], m.Nonempty) := by
  refine ⟨sortedDesc_descending, by decide, by decide, List.Perm.swap _ _ _, by decide, by decide⟩

end Verif.Info
