import Verif.Sharing.Keep
import Verif.Partition.Props

/-!
# C86: partitions are independent of each other
-/

namespace Verif.Sharing

open Verif.Partition

theorem run_append (w : World) (a b : List Op) : w.run (a ++ b) = (w.run a).run b := by
  simp [World.run, List.foldl_append]

/-- **C86.** A partition made without a list of clusters (by default, from a dictionary, or by
`find_louvain_clustering`) is independent: whatever happens in the program afterwards — other
partitions and clusterings are made, moved, cleaned and optimised, the caller changes their lists —
it is what its own operations alone make of it. -/
theorem C86_independent (before after : List Op) (op : Op) (hop : ∀ n l, op ≠ .newFrom n l) (p : Part)
    (hp : (World.empty.run (before ++ [op])).view (World.empty.run before).objs.length = some p) :
    (World.empty.run (before ++ [op] ++ after)).view (World.empty.run before).objs.length
      = some (Partition.run p (after.flatMap (own (World.empty.run before).objs.length))) := by
  have hw := wf_empty.run before
  rw [run_append] at hp
  rw [run_append, run_append]
  generalize hww : World.empty.run before = w at *
  have hc : Change w op (w.run [op]) := step_change w hw op
  have hw' := hw.change hc
  generalize hwx : w.run [op] = w' at *
  simp only [World.view, Option.map_eq_some_iff] at hp
  obtain ⟨o, ho, rfl⟩ := hp
  have hlen : w.objs[w.objs.length]? = none := by simp
  have key : Alone w.objs.length (fun _ => False) w' o := by
    cases hc with
    | same op h => rw [hlen] at ho; exact (nomatch ho)
    | noObj op h => rw [hlen] at ho; exact (nomatch ho)
    | list => simp only at ho; rw [hlen] at ho; exact (nomatch ho)
    | mutate => simp only at ho; rw [hlen] at ho; exact (nomatch ho)
    | new op hop h o' he hf =>
      have : o' = o := by simpa using ho
      subst this
      exact alone_new hw rfl (fun i x hx => hw.objs i x hx) hf
    | newFrom n l => exact absurd rfl (hop n l)
    | move => simp at ho
    | clean => simp at ho
    | find i loops hl o' ho' h he new hn hf =>
      simp only at ho
      rw [List.getElem?_append_right (by simp)] at ho
      simp only [List.length_set, Nat.sub_self] at ho
      have hf' := hf o (List.mem_of_getElem? ho)
      refine ⟨?_, hf'.1, fun a ha => (hf'.2 a ha).2, ?_, ?_⟩
      · simp only
        rw [List.getElem?_append_right (by simp)]
        simpa using ho
      · intro k x hk hx a ha hcx
        have h1 := (hf'.2 a ha).1
        simp only at hx
        by_cases hlt : k < w.objs.length
        · rw [List.getElem?_append_left (by simpa using hlt), List.getElem?_set] at hx
          split at hx
          · split at hx
            · simp only [Option.some.injEq] at hx
              subst hx
              have := hw.objs i o' ho' a (clean_sub hcx)
              omega
            · exact (nomatch hx)
          · have := hw.objs k x hx a hcx
            omega
        · have := (List.getElem?_eq_some_iff.1 hx).1
          simp only [List.length_append, List.length_set] at this
          omega
      · intro l refs _ hl' a ha hcx
        have := (hw.lists l refs hl').2 a hcx
        have := (hf'.2 a ha).1
        omega
  exact key.run hw' after (by simp)

/-- A partition made by default, moved, and not changed by a search started from it or by another
partition. -/
example : (World.empty.run [.newDefault 3, .newDict 3 [(0, 0), (1, 0), (2, 1)]]).view 1 ≠ none ∧
    own 1 (.move 1 2 0) = [.move 2 0] ∧ own 1 (.move 0 2 0) = [] := by
  refine ⟨by simp [World.run, World.step, World.empty, World.add, create, World.view, maxValue, addItems,
    pyIndex, Heap.alloc], rfl, rfl⟩

/-- **C86.** A new partition is what its arguments say at that moment (as for C23): the default, the
given dictionary, or the clusters the list of the caller has then. -/
theorem C86_created (before : List Op) (n : Nat) :
    (∀ p, mk' n .none false = .ok p →
      (World.empty.run (before ++ [.newDefault n])).view (World.empty.run before).objs.length = some p) ∧
    (∀ items p, mk' n (.nodeDict items) false = .ok p →
      (World.empty.run (before ++ [.newDict n items])).view (World.empty.run before).objs.length
        = some p) ∧
    (∀ l cl p, (World.empty.run before).listView l = some cl → mk' n (.clusterList cl) false = .ok p →
      (World.empty.run (before ++ [.newFrom n l])).view (World.empty.run before).objs.length
        = some p) := by
  generalize hw : World.empty.run before = w
  have hadd : ∀ (r : Except Err (Heap × PObj)) (p : Part),
      (match r with | .ok x => Except.ok (x.2.view x.1) | .error e => .error e) = .ok p →
        (w.add r).view w.objs.length = some p := by
    intro r p h
    cases r with
    | error e => exact (nomatch h)
    | ok x =>
      simp only [Except.ok.injEq] at h
      simp [World.add, World.view, h]
  refine ⟨fun p hp => ?_, fun items p hp => ?_, fun l cl p hl hp => ?_⟩ <;>
    rw [run_append, hw] <;> simp only [World.run, List.foldl, World.step]
  · exact hadd _ p ((create_view w.heap n .none .none trivial).trans hp)
  · exact hadd _ p ((create_view w.heap n (.dict items) (.nodeDict items) rfl).trans hp)
  · simp only [World.listView, Option.map_eq_some_iff] at hl
    obtain ⟨refs, h1, h2⟩ := hl
    rw [h1]
    exact hadd _ p ((create_view w.heap n (.refs refs) (.clusterList cl) h2).trans hp)

/-- **C86.** A partition made from a list of clusters is independent under exactly this condition:
the list is used for one partition only, and the caller does not change its sets afterwards. -/
theorem C86_from_list_partial (before after : List Op) (n l : Nat) (p : Part)
    (hb : ∀ op ∈ before, ∀ n', op ≠ .newFrom n' l) (ha : ∀ op ∈ after, ¬ usesList l op)
    (hp : (World.empty.run (before ++ [.newFrom n l])).view (World.empty.run before).objs.length
      = some p) :
    (World.empty.run (before ++ [.newFrom n l] ++ after)).view (World.empty.run before).objs.length
      = some (Partition.run p (after.flatMap (own (World.empty.run before).objs.length))) := by
  have hw := wf_empty.run before
  have hf := (listFree_empty l).run wf_empty before hb
  rw [run_append] at hp
  rw [run_append, run_append]
  generalize hww : World.empty.run before = w at *
  cases hl : w.lists[l]? with
  | none => simp [World.run, World.step, hl, World.view] at hp
  | some refs =>
    have key := alone_from (n := n) hw hl hf
    have hc := step_change w hw (.newFrom n l)
    have hr := key.run (hw.change hc) after fun op h l' hl' => by subst hl'; exact ha op h
    have hv : (w.run [.newFrom n l]).view w.objs.length
        = some ((PObj.clean w.heap ⟨n, refs, fun _ => none⟩).view (w.step (.newFrom n l)).heap) := by
      change Option.map _ ((w.step (.newFrom n l)).objs[w.objs.length]?) = _
      rw [key.obj]
      rfl
    rw [hv] at hp
    simp only [Option.some.injEq] at hp
    rw [← hp]
    exact hr

/-- **C86.** Constructions, removals of empty clusters and whole runs of `find_louvain_clustering`,
in any order and number, never change a list of the caller or a partition made before, shared or not,
beyond the empty clusters removed from the partition that is worked on. -/
theorem C86_runs_keep (before ops : List Op) (hm : ∀ op ∈ ops, ¬ moves op) :
    (∀ l cl, (World.empty.run before).listView l = some cl →
      (World.empty.run (before ++ ops)).listView l = some cl) ∧
    (∀ j p, (World.empty.run before).view j = some p →
      (World.empty.run (before ++ ops)).view j = some (Partition.run p (ops.flatMap (own j)))) := by
  have hw := wf_empty.run before
  simp only [run_append]
  generalize World.empty.run before = w at *
  induction ops generalizing w with
  | nil => exact ⟨fun _ _ h => h, fun _ _ h => h⟩
  | cons op ops ih =>
    have hc := step_change w hw op
    have hop := hm op (by simp)
    obtain ⟨h1, h2⟩ := ih (fun o h => hm o (List.mem_cons_of_mem _ h)) (w.step op) (hw.change hc)
    refine ⟨fun l cl h => h1 l cl (change_listView hw hc hop h), fun j p h => ?_⟩
    have := h2 j _ (change_view hw hc hop h)
    simpa [World.run, Partition.run, List.flatMap_cons, List.foldl_append] using this

/-- Hypotheses of the two theorems above: a list, used once, and a search that moves nodes in its own
copies only. -/
example : (World.empty.run [.mkList [{0, 1}, {2}]]).listView 0 = some [{0, 1}, {2}] ∧
    ¬ usesList 0 (.find 0 [([.move 0 1], [(0, 0), (1, 0), (2, 0)])]) ∧
    ¬ moves (.find 0 [([.move 0 1], [(0, 0), (1, 0), (2, 0)])]) :=
  ⟨rfl, fun h => h, fun h => h⟩

theorem shared_setup (n : Nat) (cl : List (Finset Nat)) (hne : ∀ c ∈ cl, c.Nonempty) :
    ∃ o : PObj, o.refs = List.range' 0 cl.length ∧ o.view cl = removeEmpty ⟨n, cl, dictOf cl⟩ ∧
      (removeEmpty ⟨n, cl, dictOf cl⟩).clusters = cl ∧
      ∀ k, World.empty.run (.mkList cl :: List.replicate k (.newFrom n 0))
        = ⟨cl, [List.range' 0 cl.length], List.replicate k o⟩ := by
  have hv : (List.range' 0 cl.length).map (Heap.at cl) = cl := alloc_view [] cl
  have hcl : (removeEmpty ⟨n, cl, dictOf cl⟩).clusters = cl := by
    simp only [removeEmpty, List.filter_eq_self]
    intro c hc
    simpa [Finset.card_pos] using hne c hc
  refine ⟨PObj.clean cl ⟨n, List.range' 0 cl.length, fun _ => none⟩, ?_, ?_, hcl, fun k => ?_⟩
  · simp only [PObj.clean, List.filter_eq_self]
    intro a ha
    have : Heap.at cl a ∈ cl := by
      have h1 := List.mem_map_of_mem (f := Heap.at cl) ha
      rwa [hv] at h1
    simpa [Finset.card_pos] using hne _ this
  · rw [clean_view]
    simp only [PObj.view, hv]
    rfl
  · induction k with
    | zero => rfl
    | succ k ih =>
      have : (Op.mkList cl :: List.replicate (k + 1) (Op.newFrom n 0))
          = (Op.mkList cl :: List.replicate k (Op.newFrom n 0)) ++ [Op.newFrom n 0] := by
        rw [List.replicate_succ']; rfl
      rw [this, run_append, ih]
      simp only [World.run, List.foldl, World.step, List.getElem?_cons_zero, create, World.add,
        List.replicate_succ']

/-- **C86, violated.** Two partitions (or clusterings) made from one list of clusters share the sets
of the list: any move of a node to another cluster in the first makes the second inconsistent — its
clusters change, its dictionary does not — and changes the list of the caller.  This holds for every
list of clusters, node and target. -/
theorem C86_shared_violated (n : Nat) (cl : List (Finset Nat)) (hcl : IsPartition n cl)
    (hne : ∀ c ∈ cl, c.Nonempty) (v cf : Nat) (hv : v < n) (hcf : cf < cl.length) (hnew : ¬ At cl cf v) :
    ∃ q cl', (World.empty.run [.mkList cl, .newFrom n 0, .newFrom n 0, .move 0 v cf]).view 1 = some q ∧
      At q.clusters cf v ∧ q.dict v ≠ some (cf : Int) ∧ ¬ Consistent q ∧
      (World.empty.run [.mkList cl, .newFrom n 0, .newFrom n 0, .move 0 v cf]).listView 0 = some cl' ∧
      At cl' cf v := by
  obtain ⟨o, hrefs, hview, hclus, hrun⟩ := shared_setup n cl hne
  have hcons : Consistent (removeEmpty ⟨n, cl, dictOf cl⟩) := consistent_removeEmpty hcl
  have hsplit : [Op.mkList cl, .newFrom n 0, .newFrom n 0, .move 0 v cf]
      = (Op.mkList cl :: List.replicate 2 (Op.newFrom n 0)) ++ [.move 0 v cf] := rfl
  rw [hsplit, run_append, hrun 2]
  have hstep : World.run ⟨cl, [List.range' 0 cl.length], List.replicate 2 o⟩ [.move 0 v cf]
      = ⟨(move cl o v cf).2.1, [List.range' 0 cl.length], [(move cl o v cf).2.2, o]⟩ := rfl
  rw [hstep]
  have hmv := (move_view cl o v cf (by rw [hrefs]; exact List.nodup_range') (by
    rw [hrefs]; intro a ha; simpa [List.mem_range'_1] using ha)).2
  rw [hview] at hmv
  have hat : At (o.refs.map (Heap.at (move cl o v cf).2.1)) cf v := by
    have h1 := ((C23_move_effect _ hcons v cf hv (by rw [hclus]; exact hcf)).2 v cf).2 (by simp)
    rw [← hmv] at h1
    simpa only [PObj.view, move_refs] using h1
  have hdict : o.dict v ≠ some (cf : Int) := by
    intro h
    have h1 : (removeEmpty ⟨n, cl, dictOf cl⟩).dict v = some (cf : Int) := by rw [← hview]; exact h
    obtain ⟨k, hk, hk'⟩ := (hcons.2 v cf).1 h1
    have : cf = k := by omega
    subst this
    rw [hclus] at hk'
    exact hnew hk'
  refine ⟨o.view (move cl o v cf).2.1, o.refs.map (Heap.at (move cl o v cf).2.1), rfl, hat, hdict,
    fun hc => hdict ((hc.2 v cf).2 ⟨cf, rfl, hat⟩), ?_, hat⟩
  rw [hrefs]
  rfl

/-- **C86, violated.** A later change of a set by the caller reaches a partition made from the list:
putting a node in another set leaves the partition with the node in two clusters, for every list, node
and set. -/
theorem C86_caller_violated (n : Nat) (cl : List (Finset Nat)) (hcl : IsPartition n cl)
    (hne : ∀ c ∈ cl, c.Nonempty) (v cf : Nat) (hv : v < n) (hcf : cf < cl.length) (hnew : ¬ At cl cf v) :
    ∃ q i, (World.empty.run [.mkList cl, .newFrom n 0, .mutate 0 cf v true]).view 0 = some q ∧
      i ≠ cf ∧ At q.clusters i v ∧ At q.clusters cf v ∧ ¬ Consistent q := by
  obtain ⟨o, hrefs, hview, hclus, hrun⟩ := shared_setup n cl hne
  have hsplit : [Op.mkList cl, .newFrom n 0, .mutate 0 cf v true]
      = (Op.mkList cl :: List.replicate 1 (Op.newFrom n 0)) ++ [.mutate 0 cf v true] := rfl
  rw [hsplit, run_append, hrun 1]
  have hget : (List.range' 0 cl.length)[cf]? = some cf := by rw [List.getElem?_range' hcf]; simp
  have hstep : World.run ⟨cl, [List.range' 0 cl.length], List.replicate 1 o⟩ [.mutate 0 cf v true]
      = ⟨List.modify cl cf (insert v), [List.range' 0 cl.length], [o]⟩ := by
    simp only [World.run, List.foldl, World.step, List.getElem?_cons_zero, hget, if_true]
    rfl
  rw [hstep]
  have hget' : (List.range' 0 cl.length).getD cf 0 = cf := by simp [hget]
  have hm : o.refs.map (Heap.at (List.modify cl cf (insert v))) = cl.modify cf (insert v) := by
    have := map_modify cl (List.range' 0 cl.length) List.nodup_range' cf (by simpa using hcf)
      (by rw [hget']; exact hcf) (insert v)
    rw [hget'] at this
    rw [hrefs, this]
    congr 1
    exact alloc_view [] cl
  obtain ⟨i, hi, -⟩ := (hcl v).1 hv
  have hicf : i ≠ cf := fun h => hnew (h ▸ hi)
  have h1 : At (cl.modify cf (insert v)) i v := by rw [at_modify, if_neg hicf]; exact hi
  have h2 : At (cl.modify cf (insert v)) cf v := by
    rw [at_modify, if_pos rfl]
    exact ⟨cl[cf], List.getElem?_eq_getElem hcf, Finset.mem_insert_self _ _⟩
  refine ⟨o.view (List.modify cl cf (insert v)), i, rfl, hicf, ?_, ?_, fun hc => ?_⟩
  · simpa only [PObj.view, hm] using h1
  · simpa only [PObj.view, hm] using h2
  · refine hicf (hc.1.disj v i cf ?_ ?_)
    · simpa only [PObj.view, hm] using h1
    · simpa only [PObj.view, hm] using h2

/-- Hypotheses of the two theorems above: two clusters of three nodes and a node of the first. -/
example : IsPartition 3 [{0, 1}, {2}] ∧ (∀ c ∈ [({0, 1} : Finset Nat), {2}], c.Nonempty) ∧
    ¬ At [{0, 1}, {2}] 1 0 := by
  refine ⟨?_, by simp, by simp [At]⟩
  refine (C24_integrity_exact_partial ⟨3, [{0, 1}, {2}], fun _ => none⟩ ?_).1 ?_
  · decide
  · rfl

end Verif.Sharing
