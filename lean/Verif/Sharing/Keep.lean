import Verif.Sharing.Worlds
import Verif.Partition.Lemmas

namespace Verif.Sharing

open Verif.Partition

/-! ## Lists of the caller -/

/-- The sets of list `l` are in no partition and no other list. -/
def ListFree (l : Nat) (w : World) : Prop :=
  ∀ refs, w.lists[l]? = some refs → Private refs (fun _ => False) (· = l) w

theorem ListFree.change {l : Nat} {w w' : World} {op : Op} (hf : ListFree l w) (hw : WF w)
    (h : Change w op w') (hn : ∀ n, op ≠ .newFrom n l) : ListFree l w' := by
  intro refs hr
  rcases change_lists h hr with h0 | ⟨hl, -, hs⟩
  · exact (hf refs h0).change h fun n l' hop hq => by subst hq; exact hn n hop
  · refine ⟨fun a ha => (hs a ha).2, fun i o _ ho a ha hc => ?_, fun l' r hl' hr' a ha hc => ?_⟩
    · have hge := (hs a ha).1
      rcases change_objs h ho with ⟨o0, h0, hs0⟩ | ⟨hi, hs0⟩ | ⟨hi, n, l2, refs2, hop, hl2, hs2⟩
      · have := hw.objs i o0 h0 a (hs0 a hc); omega
      · -- only `mkList` makes a list, and it makes no partition
        cases h with
        | list l0 hh refs0 he hn0 hr0 =>
          simp only at ho
          have := (List.getElem?_eq_some_iff.1 ho).1
          omega
        | _ => exact absurd (List.getElem?_eq_some_iff.1 hr).1 (by simpa using hl)
      · have := (hw.lists l2 refs2 hl2).2 a (hs2 a hc); omega
    · have hge := (hs a ha).1
      rcases change_lists h hr' with h0 | ⟨hl2, -, -⟩
      · have := (hw.lists l' r h0).2 a hc; omega
      · cases h with
        | list l0 hh refs0 he hn0 hr0 =>
          have h1 := (List.getElem?_eq_some_iff.1 hr).1
          have h2 := (List.getElem?_eq_some_iff.1 hr').1
          simp only [List.length_append, List.length_cons, List.length_nil] at h1 h2
          omega
        | _ => exact absurd (List.getElem?_eq_some_iff.1 hr).1 (by simpa using hl)

theorem ListFree.run {l : Nat} {w : World} (hf : ListFree l w) (hw : WF w) (ops : List Op)
    (hn : ∀ op ∈ ops, ∀ n, op ≠ .newFrom n l) : ListFree l (w.run ops) := by
  induction ops generalizing w with
  | nil => exact hf
  | cons op ops ih =>
    have hc := step_change w hw op
    exact ih (hf.change hw hc (hn op (by simp))) (hw.change hc) fun op' h' => hn op' (List.mem_cons_of_mem _ h')

theorem listFree_empty (l : Nat) : ListFree l World.empty := fun refs h => by simp [World.empty] at h

/-- A partition made from a free list is alone with the list. -/
theorem alone_from {w : World} (hw : WF w) {n l : Nat} {refs : List Nat} (hl : w.lists[l]? = some refs)
    (hf : ListFree l w) :
    Alone w.objs.length (· = l) (w.step (.newFrom n l)) (PObj.clean w.heap ⟨n, refs, fun _ => none⟩) := by
  have hp := hf refs hl
  simp only [World.step, hl, create, World.add]
  refine ⟨by simp, clean_nodup (hw.lists l refs hl).1, fun a ha => hp.bound a (clean_sub ha), ?_, ?_⟩
  · intro i x hi hx a ha hc
    simp only at hx
    by_cases hlt : i < w.objs.length
    · rw [List.getElem?_append_left hlt] at hx
      exact hp.objs i x (fun h => h) hx a (clean_sub ha) hc
    · have := (List.getElem?_eq_some_iff.1 hx).1
      simp only [List.length_append, List.length_cons, List.length_nil] at this
      omega
  · intro l' r hl' hr a ha hc
    exact hp.lists l' r hl' hr a (clean_sub ha) hc

/-! ## Operations that move nothing -/

theorem change_at {w w' : World} {op : Op} (h : Change w op w') (hm : ¬ moves op) {a : Nat}
    (ha : a < w.heap.length) : w'.heap.at a = w.heap.at a := by
  cases h with
  | list l h refs he => exact he.2 a ha
  | new op hop h o he => exact he.2 a ha
  | find i loops hl o ho h he => exact he.2 a ha
  | mutate => exact absurd trivial hm
  | move => exact absurd trivial hm
  | _ => rfl

theorem change_listView {w w' : World} {op : Op} (hw : WF w) (h : Change w op w') (hm : ¬ moves op)
    {l : Nat} {cl : List (Finset Nat)} (hl : w.listView l = some cl) : w'.listView l = some cl := by
  simp only [World.listView, Option.map_eq_some_iff] at hl ⊢
  obtain ⟨refs, h1, h2⟩ := hl
  refine ⟨refs, lists_keep h h1, ?_⟩
  rw [← h2]
  exact List.map_congr_left fun a ha => change_at h hm ((hw.lists l refs h1).2 a ha)

theorem change_view {w w' : World} {op : Op} (hw : WF w) (h : Change w op w') (hm : ¬ moves op)
    {j : Nat} {p : Part} (hp : w.view j = some p) : w'.view j = some (Partition.run p (own j op)) := by
  simp only [World.view, Option.map_eq_some_iff] at hp ⊢
  obtain ⟨o, ho, rfl⟩ := hp
  have hj : j < w.objs.length := (List.getElem?_eq_some_iff.1 ho).1
  have hb := hw.objs j o ho
  have quiet : own j op = [] → w'.objs[j]? = some o →
      ∃ a, w'.objs[j]? = some a ∧ a.view w'.heap = Partition.run (o.view w.heap) (own j op) := by
    intro h1 h2
    refine ⟨o, h2, ?_⟩
    rw [h1]
    exact view_congr fun a hh => change_at h hm (hb a hh)
  cases h with
  | same op h => exact quiet (h j) ho
  | noObj op h => exact quiet (h j (by rw [ho]; simp)) ho
  | list => exact quiet rfl ho
  | mutate => exact absurd trivial hm
  | new op hop h o' he hf => exact quiet (hop j) ((List.getElem?_append_left hj).trans ho)
  | newFrom n l refs hl o' => exact quiet rfl ((List.getElem?_append_left hj).trans ho)
  | move => exact absurd trivial hm
  | clean i o' ho' =>
    by_cases hij : i = j
    · subst hij
      rw [ho] at ho'
      simp only [Option.some.injEq] at ho'
      subst ho'
      refine ⟨_, List.getElem?_set_self hj, ?_⟩
      simp only [own, if_true, Partition.run, List.foldl, Partition.step]
      exact clean_view _ _
    · exact quiet (by simp [own, hij]) ((List.getElem?_set_ne hij).trans ho)
  | find i loops hl o' ho' h he new hn hf =>
    by_cases hij : i = j
    · subst hij
      rw [ho] at ho'
      simp only [Option.some.injEq] at ho'
      subst ho'
      refine ⟨_, (List.getElem?_append_left (by rw [List.length_set]; exact hj)).trans
        (List.getElem?_set_self hj), ?_⟩
      simp only [own, hl, ne_eq, not_false_eq_true, and_self, if_true, Partition.run, List.foldl,
        Partition.step]
      rw [← clean_view]
      exact view_congr fun a hh => he.2 a (hb a (clean_sub hh))
    · exact quiet (by simp [own, hij])
        ((List.getElem?_append_left (by rw [List.length_set]; exact hj)).trans
          ((List.getElem?_set_ne hij).trans ho))

end Verif.Sharing
