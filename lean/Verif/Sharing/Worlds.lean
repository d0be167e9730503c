import Verif.Sharing.Lemmas
import Verif.Sharing.Spec

namespace Verif.Sharing

open Verif.Partition

/-- Every reference is an address, and a list of the caller has different sets. -/
structure WF (w : World) : Prop where
  objs : ∀ (i : Nat) (o : PObj), w.objs[i]? = some o → ∀ a ∈ o.refs, a < w.heap.length
  lists : ∀ (l : Nat) (refs : List Nat), w.lists[l]? = some refs → refs.Nodup ∧ ∀ a ∈ refs, a < w.heap.length

/-- The sets `A` are held by no partition outside `P` and no list outside `Q`. -/
structure Private (A : List Nat) (P Q : Nat → Prop) (w : World) : Prop where
  bound : ∀ a ∈ A, a < w.heap.length
  objs : ∀ (i : Nat) (o : PObj), ¬ P i → w.objs[i]? = some o → ∀ a ∈ A, a ∉ o.refs
  lists : ∀ (l : Nat) (refs : List Nat), ¬ Q l → w.lists[l]? = some refs → ∀ a ∈ A, a ∉ refs

/-- How one operation can change the memory: every set that existed before is kept unless a
partition is moved or the caller changes it; a new partition has new sets, or those of a list. -/
inductive Change (w : World) : Op → World → Prop
  | same (op : Op) (h : ∀ j, own j op = []) : Change w op w
  | noObj (op : Op) (h : ∀ j, w.objs[j]? ≠ none → own j op = []) : Change w op w
  | list (l : List (Finset Nat)) (h : Heap) (refs : List Nat) (he : Ext w.heap.length w.heap h)
      (hn : refs.Nodup) (hr : ∀ a ∈ refs, w.heap.length ≤ a ∧ a < h.length) :
      Change w (.mkList l) { w with heap := h, lists := w.lists ++ [refs] }
  | mutate (l pos node : Nat) (ins : Bool) (refs : List Nat) (a : Nat) (f : Finset Nat → Finset Nat)
      (hl : w.lists[l]? = some refs) (ha : a ∈ refs) :
      Change w (.mutate l pos node ins) { w with heap := List.modify w.heap a f }
  | new (op : Op) (hop : ∀ j, own j op = []) (h : Heap) (o : PObj) (he : Ext w.heap.length w.heap h)
      (hf : FreshObj w.heap.length h o) :
      Change w op { w with heap := h, objs := w.objs ++ [o] }
  | newFrom (n l : Nat) (refs : List Nat) (hl : w.lists[l]? = some refs) (o : PObj)
      (ho : o.refs.Nodup ∨ ¬ refs.Nodup) (hs : ∀ a ∈ o.refs, a ∈ refs) :
      Change w (.newFrom n l) { w with objs := w.objs ++ [o] }
  | move (i node : Nat) (cf : Int) (o : PObj) (ho : w.objs[i]? = some o) :
      Change w (.move i node cf)
        { w with heap := (Sharing.move w.heap o node cf).2.1,
                 objs := w.objs.set i (Sharing.move w.heap o node cf).2.2 }
  | clean (i : Nat) (o : PObj) (ho : w.objs[i]? = some o) :
      Change w (.clean i) { w with objs := w.objs.set i (o.clean w.heap) }
  | find (i : Nat) (loops : List (List Partition.Op × List (Nat × Int))) (hl : loops ≠ []) (o : PObj)
      (ho : w.objs[i]? = some o) (h : Heap) (he : Ext w.heap.length w.heap h) (new : List PObj)
      (hn : new.length ≤ 1) (hf : ∀ o' ∈ new, FreshObj w.heap.length h o') :
      Change w (.find i loops)
        { w with heap := h, objs := w.objs.set i (o.clean w.heap) ++ new }

theorem change_add (w : World) (op : Op) (hop : ∀ j, own j op = []) (r : Except Err (Heap × PObj))
    (hr : ∀ x, r = .ok x → Ext w.heap.length w.heap x.1 ∧ FreshObj w.heap.length x.1 x.2) :
    Change w op (w.add r) := by
  cases r with
  | error e => exact .same op hop
  | ok x => exact .new op hop x.1 x.2 (hr x rfl).1 (hr x rfl).2

theorem step_change (w : World) (hw : WF w) (op : Op) : Change w op (w.step op) := by
  cases op with
  | mkList l =>
    refine .list l _ _ (ext_alloc w.heap l) (alloc_nodup w.heap l) fun a ha => ?_
    rw [List.length_append]
    exact mem_alloc.1 ha
  | mutate l pos node ins =>
    simp only [World.step]
    split
    · exact .same _ fun _ => rfl
    · rename_i refs hl
      split
      · exact .same _ fun _ => rfl
      · rename_i a ha
        exact .mutate l pos node ins refs a _ hl (List.mem_of_getElem? ha)
  | newDefault n => exact change_add w _ (fun _ => rfl) _ fun x hx => create_none hx
  | newFrom n l =>
    simp only [World.step]
    split
    · exact .same _ fun _ => rfl
    · rename_i refs hl
      exact .newFrom n l refs hl _ (Or.inl (clean_nodup (hw.lists l refs hl).1)) fun a ha => clean_sub ha
  | newDict n items => exact change_add w _ (fun _ => rfl) _ fun x hx => create_dict hx
  | move i node cf =>
    simp only [World.step]
    split
    · rename_i hn
      refine .noObj _ fun j hj => ?_
      simp only [own]
      split
      · rename_i hij; subst hij; exact absurd hn hj
      · rfl
    · rename_i o ho
      exact .move i node cf o ho
  | clean i =>
    simp only [World.step]
    split
    · rename_i hn
      refine .noObj _ fun j hj => ?_
      simp only [own]
      split
      · rename_i hij; subst hij; exact absurd hn hj
      · rfl
    · rename_i o ho
      exact .clean i o ho
  | find i loops =>
    simp only [World.step]
    split
    · rename_i hn
      refine .noObj _ fun j hj => ?_
      simp only [own]
      split
      · rename_i hij; rw [hij.1] at hn; exact absurd hn hj
      · rfl
    · rename_i o ho
      split
      · rename_i hl
        exact .same _ fun j => by simp [own, hl]
      · rename_i hl
        have e1 := ext_alloc w.heap (o.refs.map w.heap.at)
        have hc : o.clean (w.heap.alloc (o.refs.map w.heap.at)).1 = o.clean w.heap :=
          clean_congr fun a ha => e1.2 a (hw.objs i o ho a ha)
        simp only [create]
        rw [hc]
        cases hr : findLoop (w.heap.alloc (o.refs.map w.heap.at)).1 o
            (PObj.clean (w.heap.alloc (o.refs.map w.heap.at)).1
              ⟨o.num, (w.heap.alloc (o.refs.map w.heap.at)).2, fun _ => none⟩) loops with
        | error e =>
          simp only [World.add]
          have := Change.find (w := w) i loops hl o ho _ e1 [] (by simp) (by simp)
          simpa using this
        | ok x =>
          have fr := findLoop_fresh w.heap.length loops _ o _ e1.1 (fun h => absurd h hl)
            (fun a ha => ((fresh_alloc w.heap (o.refs.map w.heap.at) o.num _).2 a ha).1) hr
          simp only [World.add]
          exact Change.find (w := w) i loops hl o ho _ (e1.trans fr.1) [x.2] (by simp) (by simpa using fr.2)
  | findZero i =>
    simp only [World.step]
    split
    · exact .same _ fun _ => rfl
    · rename_i o ho
      exact .new _ (fun _ => rfl) _ _ (ext_alloc w.heap _) (fresh_alloc w.heap _ o.num _)

theorem change_length {w w' : World} {op : Op} (h : Change w op w') : w.heap.length ≤ w'.heap.length := by
  cases h with
  | list l h refs he => exact he.1
  | new op hop h o he => exact he.1
  | find i loops hl o ho h he => exact he.1
  | mutate => exact le_of_eq (modify_length _ _ _).symm
  | move => exact le_of_eq (move_length _ _ _ _).symm
  | _ => exact le_refl _

/-- A partition of the new memory has new sets, or those of a list in use, or those of the partition
of the same number. -/
theorem change_objs {w w' : World} {op : Op} (h : Change w op w') {i : Nat} {o' : PObj}
    (ho : w'.objs[i]? = some o') :
    (∃ o, w.objs[i]? = some o ∧ ∀ a ∈ o'.refs, a ∈ o.refs) ∨
      (w.objs.length ≤ i ∧ ∀ a ∈ o'.refs, w.heap.length ≤ a ∧ a < w'.heap.length) ∨
      (w.objs.length ≤ i ∧ ∃ n l refs, op = .newFrom n l ∧ w.lists[l]? = some refs ∧
        ∀ a ∈ o'.refs, a ∈ refs) := by
  have app : ∀ {L M : List PObj}, (L ++ M)[i]? = some o' →
      L[i]? = some o' ∨ (L.length ≤ i ∧ o' ∈ M) := by
    intro L M hh
    by_cases hi : i < L.length
    · rw [List.getElem?_append_left hi] at hh; exact Or.inl hh
    · rw [List.getElem?_append_right (by omega)] at hh
      exact Or.inr ⟨by omega, List.mem_of_getElem? hh⟩
  have upd : ∀ {k : Nat} {x : PObj}, (w.objs.set k x)[i]? = some o' →
      (i ≠ k ∧ w.objs[i]? = some o') ∨ (i = k ∧ o' = x) := by
    intro k x hh
    rw [List.getElem?_set] at hh
    split at hh
    · rename_i hk
      split at hh
      · simp only [Option.some.injEq] at hh; exact Or.inr ⟨hk.symm, hh.symm⟩
      · exact (nomatch hh)
    · rename_i hk; exact Or.inl ⟨fun h => hk h.symm, hh⟩
  cases h with
  | same op h => exact Or.inl ⟨o', ho, fun _ h => h⟩
  | noObj op h => exact Or.inl ⟨o', ho, fun _ h => h⟩
  | list => exact Or.inl ⟨o', ho, fun _ h => h⟩
  | mutate => exact Or.inl ⟨o', ho, fun _ h => h⟩
  | new op hop h o he hf =>
    rcases app ho with h1 | ⟨h1, h2⟩
    · exact Or.inl ⟨o', h1, fun _ h => h⟩
    · simp only [List.mem_singleton] at h2
      subst h2
      exact Or.inr (Or.inl ⟨h1, hf.2⟩)
  | newFrom n l refs hl o hn hs =>
    rcases app ho with h1 | ⟨h1, h2⟩
    · exact Or.inl ⟨o', h1, fun _ h => h⟩
    · simp only [List.mem_singleton] at h2
      subst h2
      exact Or.inr (Or.inr ⟨h1, n, l, refs, rfl, hl, hs⟩)
  | move k node cf o hk =>
    rcases upd ho with ⟨-, h1⟩ | ⟨rfl, rfl⟩
    · exact Or.inl ⟨o', h1, fun _ h => h⟩
    · exact Or.inl ⟨o, hk, fun a ha => by rwa [move_refs] at ha⟩
  | clean k o hk =>
    rcases upd ho with ⟨-, h1⟩ | ⟨rfl, rfl⟩
    · exact Or.inl ⟨o', h1, fun _ h => h⟩
    · exact Or.inl ⟨o, hk, fun a ha => clean_sub ha⟩
  | find k loops hl o hk h he new hn hf =>
    rcases app ho with h1 | ⟨h1, h2⟩
    · rcases upd h1 with ⟨-, h1⟩ | ⟨rfl, rfl⟩
      · exact Or.inl ⟨o', h1, fun _ h => h⟩
      · exact Or.inl ⟨o, hk, fun a ha => clean_sub ha⟩
    · rw [List.length_set] at h1
      exact Or.inr (Or.inl ⟨h1, (hf o' h2).2⟩)

/-- A list of the caller is an old one or has new sets. -/
theorem change_lists {w w' : World} {op : Op} (h : Change w op w') {l : Nat} {refs : List Nat}
    (hl : w'.lists[l]? = some refs) :
    w.lists[l]? = some refs ∨
      (w.lists.length ≤ l ∧ refs.Nodup ∧ ∀ a ∈ refs, w.heap.length ≤ a ∧ a < w'.heap.length) := by
  cases h with
  | list l' h refs' he hn hr =>
    simp only at hl
    by_cases hi : l < w.lists.length
    · rw [List.getElem?_append_left hi] at hl; exact Or.inl hl
    · rw [List.getElem?_append_right (by omega)] at hl
      have := List.mem_of_getElem? hl
      simp only [List.mem_singleton] at this
      subst this
      exact Or.inr ⟨by omega, hn, hr⟩
  | _ => exact Or.inl hl

theorem lists_keep {w w' : World} {op : Op} (h : Change w op w') {l : Nat} {refs : List Nat}
    (hl : w.lists[l]? = some refs) : w'.lists[l]? = some refs := by
  cases h with
  | list l' h refs' he hn hr =>
    exact (List.getElem?_append_left (List.getElem?_eq_some_iff.1 hl).1).trans hl
  | _ => exact hl

theorem WF.change {w w' : World} {op : Op} (hw : WF w) (h : Change w op w') : WF w' := by
  have hlen := change_length h
  constructor
  · intro i o ho a ha
    rcases change_objs h ho with ⟨o0, h0, hs⟩ | ⟨-, hs⟩ | ⟨-, n, l, refs, -, hl, hs⟩
    · exact lt_of_lt_of_le (hw.objs i o0 h0 a (hs a ha)) hlen
    · exact (hs a ha).2
    · exact lt_of_lt_of_le ((hw.lists l refs hl).2 a (hs a ha)) hlen
  · intro l refs hl
    rcases change_lists h hl with h0 | ⟨-, hn, hs⟩
    · exact ⟨(hw.lists l refs h0).1, fun a ha => lt_of_lt_of_le ((hw.lists l refs h0).2 a ha) hlen⟩
    · exact ⟨hn, fun a ha => (hs a ha).2⟩

theorem WF.run {w : World} (hw : WF w) (ops : List Op) : WF (w.run ops) := by
  induction ops generalizing w with
  | nil => exact hw
  | cons op ops ih => exact ih (hw.change (step_change w hw op))

theorem wf_empty : WF World.empty := ⟨fun i o h => by simp [World.empty] at h, fun l r h => by simp [World.empty] at h⟩

theorem Private.change {A : List Nat} {P Q : Nat → Prop} {w w' : World} {op : Op}
    (hp : Private A P Q w) (h : Change w op w') (hq : ∀ n l, op = .newFrom n l → ¬ Q l) :
    Private A P Q w' := by
  constructor
  · intro a ha; exact lt_of_lt_of_le (hp.bound a ha) (change_length h)
  · intro i o hi ho a ha hc
    rcases change_objs h ho with ⟨o0, h0, hs⟩ | ⟨-, hs⟩ | ⟨-, n, l, refs, hop, hl, hs⟩
    · exact hp.objs i o0 hi h0 a ha (hs a hc)
    · have := (hs a hc).1; have := hp.bound a ha; omega
    · exact hp.lists l refs (hq n l hop) hl a ha (hs a hc)
  · intro l refs hi hl a ha hc
    rcases change_lists h hl with h0 | ⟨-, -, hs⟩
    · exact hp.lists l refs hi h0 a ha hc
    · have := (hs a hc).1; have := hp.bound a ha; omega

theorem Private.frame {A : List Nat} {P Q : Nat → Prop} {w w' : World} {op : Op}
    (hp : Private A P Q w) (h : Change w op w') (hm : ∀ i v c, op = .move i v c → ¬ P i)
    (hu : ∀ l p n b, op = .mutate l p n b → ¬ Q l) {a : Nat} (ha : a ∈ A) :
    w'.heap.at a = w.heap.at a := by
  cases h with
  | list l h refs he => exact he.2 a (hp.bound a ha)
  | new op hop h o he => exact he.2 a (hp.bound a ha)
  | find i loops hl o ho h he => exact he.2 a (hp.bound a ha)
  | mutate l p n b refs x f hl hx =>
    refine modify_at_ne _ _ fun hc => ?_
    subst hc
    exact hp.lists l refs (hu l p n b rfl) hl a ha hx
  | move i v c o ho => exact move_frame _ _ _ _ (hp.objs i o (hm i v c rfl) ho a ha)
  | _ => rfl

/-- Partition `j` holds different sets that nobody else holds, except lists in `Q`. -/
structure Alone (j : Nat) (Q : Nat → Prop) (w : World) (o : PObj) : Prop where
  obj : w.objs[j]? = some o
  nodup : o.refs.Nodup
  priv : Private o.refs (· = j) Q w

theorem Private.mono {A B : List Nat} {P Q : Nat → Prop} {w : World} (h : Private A P Q w)
    (hs : ∀ a ∈ B, a ∈ A) : Private B P Q w :=
  ⟨fun a ha => h.bound a (hs a ha), fun i o hi ho a ha => h.objs i o hi ho a (hs a ha),
    fun l r hl hr a ha => h.lists l r hl hr a (hs a ha)⟩

theorem Alone.change {j : Nat} {Q : Nat → Prop} {w w' : World} {o : PObj} {op : Op}
    (ha : Alone j Q w o) (h : Change w op w') (hq : ∀ n l, op = .newFrom n l → ¬ Q l)
    (hu : ∀ l p n b, op = .mutate l p n b → ¬ Q l) :
    ∃ o', Alone j Q w' o' ∧ o'.view w'.heap = Partition.run (o.view w.heap) (own j op) := by
  have hp := ha.priv.change h hq
  have hj : j < w.objs.length := (List.getElem?_eq_some_iff.1 ha.obj).1
  -- the operation does nothing to `j`
  have quiet : own j op = [] → w'.objs[j]? = some o → (∀ i v c, op = .move i v c → i ≠ j) →
      ∃ o', Alone j Q w' o' ∧ o'.view w'.heap = Partition.run (o.view w.heap) (own j op) := by
    intro h1 h2 h3
    refine ⟨o, ⟨h2, ha.nodup, hp⟩, ?_⟩
    rw [h1]
    exact view_congr fun a hh => ha.priv.frame h h3 hu hh
  cases h with
  | same op h =>
    exact quiet (h j) ha.obj fun i v c hop hij => by
      have := h j; subst hop; simp [own, hij] at this
  | noObj op h =>
    have hn := h j (by rw [ha.obj]; simp)
    exact quiet hn ha.obj fun i v c hop hij => by subst hop; simp [own, hij] at hn
  | list => exact quiet rfl ha.obj fun _ _ _ hop => (nomatch hop)
  | mutate => exact quiet rfl ha.obj fun _ _ _ hop => (nomatch hop)
  | new op hop h o' he hf =>
    exact quiet (hop j) ((List.getElem?_append_left hj).trans ha.obj) fun i v c hop' hij => by
      have := hop j; subst hop'; simp [own, hij] at this
  | newFrom n l refs hl o' =>
    exact quiet rfl ((List.getElem?_append_left hj).trans ha.obj) fun _ _ _ hop => (nomatch hop)
  | move i v c o' ho =>
    by_cases hij : i = j
    · subst hij
      rw [ha.obj] at ho
      simp only [Option.some.injEq] at ho
      subst ho
      refine ⟨_, ⟨List.getElem?_set_self hj, by rw [move_refs]; exact ha.nodup,
        by rw [move_refs]; exact hp⟩, ?_⟩
      simp only [own, if_true, Partition.run, List.foldl, Partition.step]
      exact (move_view w.heap o v c ha.nodup ha.priv.bound).2
    · exact quiet (by simp [own, hij]) ((List.getElem?_set_ne hij).trans ha.obj)
        fun i' v' c' hop => by cases hop; exact hij
  | clean i o' ho =>
    by_cases hij : i = j
    · subst hij
      rw [ha.obj] at ho
      simp only [Option.some.injEq] at ho
      subst ho
      refine ⟨_, ⟨List.getElem?_set_self hj, clean_nodup ha.nodup, hp.mono fun a h => clean_sub h⟩, ?_⟩
      simp only [own, if_true, Partition.run, List.foldl, Partition.step]
      exact clean_view _ _
    · exact quiet (by simp [own, hij]) ((List.getElem?_set_ne hij).trans ha.obj)
        fun i' v' c' hop => (nomatch hop)
  | find i loops hl o' ho h he new hn hf =>
    by_cases hij : i = j
    · subst hij
      rw [ha.obj] at ho
      simp only [Option.some.injEq] at ho
      subst ho
      refine ⟨_, ⟨(List.getElem?_append_left (by rw [List.length_set]; exact hj)).trans
        (List.getElem?_set_self hj), clean_nodup ha.nodup, hp.mono fun a h => clean_sub h⟩, ?_⟩
      simp only [own, hl, ne_eq, not_false_eq_true, and_self, if_true, Partition.run, List.foldl,
        Partition.step]
      rw [← clean_view]
      exact view_congr fun a hh => he.2 a (ha.priv.bound a (clean_sub hh))
    · exact quiet (by simp [own, hij]) ((List.getElem?_append_left (by rw [List.length_set]; exact hj)).trans
        ((List.getElem?_set_ne hij).trans ha.obj)) fun i' v' c' hop => (nomatch hop)

theorem Alone.run {j : Nat} {Q : Nat → Prop} {w : World} {o : PObj} (hw : WF w) (ha : Alone j Q w o)
    (ops : List Op) (hq : ∀ op ∈ ops, ∀ l, Q l → ¬ usesList l op) :
    (w.run ops).view j = some (Partition.run (o.view w.heap) (ops.flatMap (own j))) := by
  induction ops generalizing w o with
  | nil => simp [World.run, World.view, ha.obj, Partition.run]
  | cons op ops ih =>
    have hc := step_change w hw op
    have hop := hq op (by simp)
    obtain ⟨o', ha', hv⟩ := ha.change hc
      (fun n l h hl => hop l hl (by subst h; rfl)) (fun l p n b h hl => hop l hl (by subst h; rfl))
    have := ih (hw.change hc) ha' fun op' h' => hq op' (List.mem_cons_of_mem _ h')
    rw [hv] at this
    simpa [World.run, Partition.run, List.flatMap_cons, List.foldl_append] using this

/-- A new partition with new sets is alone. -/
theorem alone_new {w : World} (hw : WF w) {h : Heap} {o : PObj} {L : List PObj}
    (hL : L.length = w.objs.length)
    (hs : ∀ (i : Nat) (x : PObj), L[i]? = some x → ∀ a ∈ x.refs, a < w.heap.length)
    (hf : FreshObj w.heap.length h o) :
    Alone w.objs.length (fun _ => False) { w with heap := h, objs := L ++ [o] } o := by
  refine ⟨?_, hf.1, fun a ha => (hf.2 a ha).2, ?_, ?_⟩
  · rw [← hL]; simp
  · intro i x hi hx a ha hc
    simp only at hx
    by_cases hl : i < L.length
    · rw [List.getElem?_append_left hl] at hx
      have := hs i x hx a hc
      have := (hf.2 a ha).1
      omega
    · rw [List.getElem?_append_right (by omega)] at hx
      have : i - L.length = 0 := by
        by_contra hne
        rw [List.getElem?_eq_none (by simp; omega)] at hx
        exact (nomatch hx)
      omega
  · intro l refs _ hl a ha hc
    have := (hw.lists l refs hl).2 a hc
    have := (hf.2 a ha).1
    omega

end Verif.Sharing
