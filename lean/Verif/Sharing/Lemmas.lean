import Verif.Sharing.Model

namespace Verif.Sharing

open Verif.Partition

/-! ## The heap -/

theorem alloc_length (h : Heap) (ss : List (Finset Nat)) :
    (h.alloc ss).1.length = h.length + ss.length := by simp [Heap.alloc]

theorem alloc_at_old (h : Heap) (ss : List (Finset Nat)) {a : Nat} (ha : a < h.length) :
    (h.alloc ss).1.at a = h.at a := by
  simp [Heap.alloc, Heap.at, List.getElem?_append_left ha]

theorem mem_alloc {h : Heap} {ss : List (Finset Nat)} {a : Nat} :
    a ∈ (h.alloc ss).2 ↔ h.length ≤ a ∧ a < h.length + ss.length := by
  simp [Heap.alloc, List.mem_range'_1]

theorem alloc_nodup (h : Heap) (ss : List (Finset Nat)) : (h.alloc ss).2.Nodup := by
  simp [Heap.alloc, List.nodup_range']

theorem alloc_view (h : Heap) (ss : List (Finset Nat)) : (h.alloc ss).2.map (h.alloc ss).1.at = ss := by
  apply List.ext_getElem?
  intro i
  simp only [Heap.alloc, List.getElem?_map]
  by_cases hi : i < ss.length
  · rw [List.getElem?_range' hi]
    simp [hi, Heap.at]
  · rw [List.getElem?_eq_none (by simpa using hi), List.getElem?_eq_none (by simpa using hi)]
    rfl

theorem modify_length (h : Heap) (a : Nat) (f : Finset Nat → Finset Nat) :
    List.length (List.modify h a f) = h.length := by simp

theorem modify_at_ne (h : Heap) {a b : Nat} (f : Finset Nat → Finset Nat) (hab : b ≠ a) :
    Heap.at (List.modify h a f) b = h.at b := by
  simp [Heap.at, List.getElem?_modify, Ne.symm hab]

theorem modify_at_eq (h : Heap) {a : Nat} (f : Finset Nat → Finset Nat) (ha : a < h.length) :
    Heap.at (List.modify h a f) a = f (h.at a) := by
  simp [Heap.at, List.getElem?_modify, ha]

theorem map_modify (h : Heap) (refs : List Nat) (hnd : refs.Nodup) (k : Nat) (hk : k < refs.length)
    (hb : refs.getD k 0 < h.length) (f : Finset Nat → Finset Nat) :
    refs.map (Heap.at (List.modify h (refs.getD k 0) f)) = (refs.map h.at).modify k f := by
  apply List.ext_getElem?
  intro i
  rw [List.getElem?_map, List.getElem?_modify, List.getElem?_map]
  by_cases hi : i < refs.length
  · rw [List.getElem?_eq_getElem hi]
    have hg : refs.getD k 0 = refs[k] := by simp [hk]
    by_cases hik : k = i
    · subst hik
      simp only [Option.map_some, if_true]
      rw [← hg, modify_at_eq h f hb]
      rfl
    · simp only [Option.map_some, if_neg hik]
      refine congrArg some (modify_at_ne h f ?_)
      rw [hg]
      intro he
      exact hik ((hnd.getElem_inj_iff).1 he).symm
  · rw [List.getElem?_eq_none (by simpa using hi)]
    rfl

theorem view_congr {h h' : Heap} {o : PObj} (he : ∀ a ∈ o.refs, h'.at a = h.at a) : o.view h' = o.view h := by
  simp only [PObj.view, Part.mk.injEq, true_and, and_true]
  exact List.map_congr_left he

theorem clean_congr {h h' : Heap} {o : PObj} (he : ∀ a ∈ o.refs, h'.at a = h.at a) : o.clean h' = o.clean h := by
  have h1 : o.refs.filter (fun a => decide (0 < (h'.at a).card))
      = o.refs.filter (fun a => decide (0 < (h.at a).card)) :=
    List.filter_congr fun a ha => by rw [he a ha]
  simp only [PObj.clean, h1, PObj.mk.injEq, true_and]
  congr 1
  exact List.map_congr_left fun a ha => he a (List.mem_filter.1 ha).1

theorem clean_sub {h : Heap} {o : PObj} {a : Nat} (ha : a ∈ (o.clean h).refs) : a ∈ o.refs :=
  (List.mem_filter.1 ha).1

theorem clean_nodup {h : Heap} {o : PObj} (hn : o.refs.Nodup) : (o.clean h).refs.Nodup := hn.filter _

theorem clean_view (h : Heap) (o : PObj) : (o.clean h).view h = removeEmpty (o.view h) := by
  simp only [PObj.clean, PObj.view, removeEmpty, List.filter_map]
  rfl

theorem pyIndex_lt {n : Nat} {i : Int} {k : Nat} (h : pyIndex n i = some k) : k < n := by
  simp only [pyIndex] at h
  split at h <;> split at h <;> simp only [Option.some.injEq, reduceCtorEq] at h <;> omega

/-! ## Operations on one object -/

theorem move_refs (h : Heap) (o : PObj) (v : Nat) (c : Int) : (move h o v c).2.2.refs = o.refs := by
  simp only [move]
  repeat' split
  all_goals rfl

theorem move_length (h : Heap) (o : PObj) (v : Nat) (c : Int) : (move h o v c).2.1.length = h.length := by
  simp only [move]
  repeat' split
  all_goals simp

theorem getD_mem {refs : List Nat} {k : Nat} (hk : k < refs.length) : refs.getD k 0 ∈ refs := by
  have : refs.getD k 0 = refs[k] := by simp [hk]
  rw [this]
  exact List.getElem_mem hk

theorem move_frame (h : Heap) (o : PObj) (v : Nat) (c : Int) {a : Nat} (ha : a ∉ o.refs) :
    (move h o v c).2.1.at a = h.at a := by
  have key : ∀ {k : Nat}, k < o.refs.length → a ≠ o.refs.getD k 0 := fun hk he => ha (he ▸ getD_mem hk)
  simp only [move]
  split
  · rfl
  · split
    · split
      · rfl
      · rename_i k hk
        split
        · split
          · exact modify_at_ne _ _ (key (pyIndex_lt hk))
          · rename_i k' hk'
            exact (modify_at_ne _ _ (key (pyIndex_lt hk'))).trans (modify_at_ne _ _ (key (pyIndex_lt hk)))
        · rfl
    · rfl

theorem move_view (h : Heap) (o : PObj) (v : Nat) (c : Int) (hnd : o.refs.Nodup)
    (hb : ∀ a ∈ o.refs, a < h.length) :
    (move h o v c).1 = (moveNode (o.view h) v c).1 ∧
      (move h o v c).2.2.view (move h o v c).2.1 = (moveNode (o.view h) v c).2 := by
  simp only [move, moveNode, PObj.view, List.length_map]
  split
  · rename_i hd; simp [hd]
  · rename_i ci hd
    simp only [hd]
    split
    · rename_i hne
      cases hk : pyIndex o.refs.length ci with
      | none => simp
      | some k =>
        have hlt := pyIndex_lt hk
        have hat : h.at (o.refs.getD k 0) = (o.refs.map h.at).getD k ∅ := by simp [hlt]
        simp only [← hat]
        split
        · have hm := map_modify h o.refs hnd k hlt (hb _ (getD_mem hlt)) (·.erase v)
          cases hk' : pyIndex o.refs.length c with
          | none =>
            simp only [List.length_modify, List.length_map, hk', true_and]
            rw [hm]
          | some k' =>
            have hlt' := pyIndex_lt hk'
            have hm' := map_modify (List.modify h (o.refs.getD k 0) (·.erase v)) o.refs hnd k' hlt'
              (by rw [modify_length]; exact hb _ (getD_mem hlt')) (insert v)
            simp only [List.length_modify, List.length_map, hk', true_and]
            rw [hm', hm]
        · simp
    · simp

/-- The operations of a partition keep what it holds and touch no other set. -/
theorem acts_frame (l : List Partition.Op) (h : Heap) (o : PObj) :
    (acts h o l).1.length = h.length ∧ (∀ a, a ∉ o.refs → (acts h o l).1.at a = h.at a) ∧
      (∀ a ∈ (acts h o l).2.refs, a ∈ o.refs) := by
  induction l generalizing h o with
  | nil => exact ⟨rfl, fun _ _ => rfl, fun _ ha => ha⟩
  | cons op l ih =>
    cases op with
    | move v c =>
      obtain ⟨h1, h2, h3⟩ := ih (move h o v c).2.1 (move h o v c).2.2
      refine ⟨h1.trans (move_length h o v c), fun a ha => ?_, fun a ha => ?_⟩
      · exact (h2 a (by rw [move_refs]; exact ha)).trans (move_frame h o v c ha)
      · have := h3 a ha; rwa [move_refs] at this
    | removeEmpty =>
      obtain ⟨h1, h2, h3⟩ := ih h (o.clean h)
      exact ⟨h1, fun a ha => h2 a fun hc => ha (clean_sub hc), fun a ha => clean_sub (h3 a ha)⟩

/-! ## Construction -/

/-- Sets below `n` are as before and the heap has not shrunk. -/
def Ext (n : Nat) (h h' : Heap) : Prop := h.length ≤ h'.length ∧ ∀ a < n, h'.at a = h.at a

theorem Ext.trans {n : Nat} {h h' h'' : Heap} (h1 : Ext n h h') (h2 : Ext n h' h'') : Ext n h h'' :=
  ⟨h1.1.trans h2.1, fun a ha => (h2.2 a ha).trans (h1.2 a ha)⟩

/-- The object only holds sets at addresses from `n` on, each once. -/
def FreshObj (n : Nat) (h : Heap) (o : PObj) : Prop :=
  o.refs.Nodup ∧ ∀ a ∈ o.refs, n ≤ a ∧ a < h.length

theorem fresh_alloc (h : Heap) (ss : List (Finset Nat)) (m : Nat) (h0 : Heap) :
    FreshObj h.length (h.alloc ss).1 (PObj.clean h0 ⟨m, (h.alloc ss).2, fun _ => none⟩) := by
  refine ⟨clean_nodup (alloc_nodup h ss), fun a ha => ?_⟩
  have := mem_alloc.1 (clean_sub ha)
  rw [alloc_length]
  exact this

theorem ext_alloc (h : Heap) (ss : List (Finset Nat)) : Ext h.length h (h.alloc ss).1 :=
  ⟨by rw [alloc_length]; omega, fun _ ha => alloc_at_old h ss ha⟩

theorem create_none {h : Heap} {n : Nat} {r : Heap × PObj} (hr : create h n .none = .ok r) :
    Ext h.length h r.1 ∧ FreshObj h.length r.1 r.2 := by
  simp only [create, Except.ok.injEq] at hr
  subst hr
  exact ⟨ext_alloc _ _, fresh_alloc _ _ _ _⟩

theorem create_dict {h : Heap} {n : Nat} {items : List (Nat × Int)} {r : Heap × PObj}
    (hr : create h n (.dict items) = .ok r) : Ext h.length h r.1 ∧ FreshObj h.length r.1 r.2 := by
  simp only [create] at hr
  split at hr
  · exact (nomatch hr)
  · split at hr
    · exact (nomatch hr)
    · simp only [Except.ok.injEq] at hr
      subst hr
      exact ⟨ext_alloc _ _, fresh_alloc _ _ _ _⟩

theorem removeEmpty_dict (n : Nat) (cl : List (Finset Nat)) (d d' : Nat → Option Int) :
    removeEmpty ⟨n, cl, d⟩ = removeEmpty ⟨n, cl, d'⟩ := rfl

theorem create_view (h : Heap) (n : Nat) (src : Src) (arg : Arg)
    (hs : match src, arg with
      | .none, .none => True
      | .refs l, .clusterList cl => l.map h.at = cl
      | .dict items, .nodeDict items' => items = items'
      | _, _ => False) :
    (match create h n src with
      | .ok r => Except.ok (r.2.view r.1)
      | .error e => .error e) = mk' n arg false := by
  match src, arg, hs with
  | .none, .none, _ =>
    simp only [create, mk', Bool.false_eq_true, if_false]
    rw [clean_view]
    simp only [PObj.view, alloc_view]
    rw [removeEmpty_dict]
  | .refs l, .clusterList cl, hs =>
    simp only [create, mk', Bool.false_eq_true, if_false]
    rw [clean_view]
    simp only at hs
    simp only [PObj.view, hs]
    rw [removeEmpty_dict]
  | .dict items, .nodeDict items', hs =>
    simp only at hs
    subst hs
    simp only [create, mk', Bool.false_eq_true, if_false]
    cases maxValue items with
    | none => rfl
    | some m =>
      simp only
      cases addItems items (List.replicate (m + 1).toNat ∅) with
      | error e => rfl
      | ok cl =>
        simp only
        rw [clean_view]
        simp only [PObj.view, alloc_view]
        rw [removeEmpty_dict]

theorem findLoop_fresh (n : Nat) (loops : List (List Partition.Op × List (Nat × Int))) (h : Heap)
    (self mc : PObj) (hn : n ≤ h.length) (hs : loops = [] → FreshObj n h self)
    (hm : ∀ a ∈ mc.refs, n ≤ a) {r : Heap × PObj} (hr : findLoop h self mc loops = .ok r) :
    Ext n h r.1 ∧ FreshObj n r.1 r.2 := by
  induction loops generalizing h self mc with
  | nil =>
    simp only [findLoop, Except.ok.injEq] at hr
    subst hr
    exact ⟨⟨le_refl _, fun _ _ => rfl⟩, hs rfl⟩
  | cons x loops ih =>
    obtain ⟨ops, items⟩ := x
    simp only [findLoop] at hr
    obtain ⟨l1, f1, -⟩ := acts_frame ops h mc
    cases h2 : create (acts h mc ops).1 self.num (.dict items) with
    | error e => rw [h2] at hr; exact (nomatch hr)
    | ok r2 =>
      rw [h2] at hr
      simp only at hr
      cases h3 : create r2.1 r2.2.refs.length .none with
      | error e => rw [h3] at hr; exact (nomatch hr)
      | ok r3 =>
        rw [h3] at hr
        simp only at hr
        obtain ⟨e2, fr2⟩ := create_dict h2
        obtain ⟨e3, fr3⟩ := create_none h3
        have l2 := e2.1
        have l3 := e3.1
        rw [l1] at l2
        have x : Ext n h r3.1 := by
          refine ⟨by omega, fun a ha => ?_⟩
          rw [e3.2 a (by omega), e2.2 a (by omega)]
          exact f1 a fun hc => by have := hm a hc; omega
        have := ih r3.1 r2.2 r3.2 (by omega)
          (fun _ => ⟨fr2.1, fun a ha => by
            have hh := fr2.2 a ha
            rw [l1] at hh
            omega⟩)
          (fun a ha => by have := (fr3.2 a ha).1; omega) hr
        exact ⟨x.trans this.1, this.2⟩

end Verif.Sharing
