import Verif.Extras.Model
import Verif.SaveLoad.Props
import Verif.Optimum.Spec
import Mathlib.Algebra.BigOperators.Group.Finset.Sigma
import Mathlib.Algebra.Order.Ring.Rat

/-!
# Descriptions, timing, documentation and sums over subsets: properties C154 to C157
-/

set_option linter.dupNamespace false
set_option linter.unusedSectionVars false

namespace Verif.Extras

open Verif.TempNet Verif.SaveLoad Finset

/-! ## C154 -/

section describe

variable {K : Type} [Field K] [LinearOrder K] [IsStrictOrderedRing K] {V : Type}

/-- The nodes that take part in an event. -/
def nodesIn (evs : List (Event Nat K)) : Finset Nat := (evs.map Event.src ++ evs.map Event.tgt).toFinset

/-- The text with a number of nodes and a number of events. -/
def countText (cls : Cls) (nodes events : Nat) : String :=
  className cls ++ (" with " ++ toString nodes ++ " nodes and " ++ toString events ++ " events")

theorem nodeArray_card (evs : List (Event Nat K)) : (nodeArray evs).length = (nodesIn evs).card := by
  have hnd : (nodeArray evs).Nodup := (uniqueSorted_lt _).imp fun h => ne_of_lt h
  rw [← List.toFinset_card_of_nodup hnd]
  congr 1
  ext i
  simp only [List.mem_toFinset, mem_nodeArray, nodesIn, List.mem_append, List.mem_map]
  constructor
  · rintro ⟨e, he, rfl | rfl⟩
    · exact .inl ⟨e, he, rfl⟩
    · exact .inr ⟨e, he, rfl⟩
  · rintro (⟨e, he, rfl⟩ | ⟨e, he, rfl⟩)
    · exact ⟨e, he, .inl rfl⟩
    · exact ⟨e, he, .inr rfl⟩

/-- **C154**.  The description of a network counts the nodes that take part in a contact, each once, and the contacts. -/
theorem C154_counts (str : Val K V → String) (hstr : ∀ n, str (.count n) = toString n) (evs : List (Event Nat K)) (labels noTimes : V)
    (l : Option V) :
    describe str (newCont evs labels noTimes l) = .ok (countText .cont (nodesIn evs).card evs.length) ∧
    describe str (newInst evs labels noTimes l) = .ok (countText .inst (nodesIn evs).card evs.length) := by
  rw [← nodeArray_card]
  constructor
  · show Except.ok (className .cont ++ (" with " ++ str (.count (nodeArray evs).length) ++ " nodes and " ++ str (.count evs.length) ++
      " events")) = _
    rw [hstr, hstr]
    rfl
  · show Except.ok (className .inst ++ (" with " ++ str (.count (nodeArray evs).length) ++ " nodes and " ++ str (.count evs.length) ++
      " events")) = _
    rw [hstr, hstr]
    rfl

/-- **C154**, merged contacts.  After merging, the contacts that are left are counted, and the nodes of all contacts. -/
theorem C154_merged (str : Val K V → String) (hstr : ∀ n, str (.count n) = toString n) (evs merged : List (Event Nat K))
    (durs : Event Nat K → K) (labels noTimes grid : V) (l : Option V) :
    describe str (newMerged evs merged durs labels noTimes grid l) = .ok (countText .cont (nodesIn evs).card merged.length) := by
  rw [← nodeArray_card]
  show Except.ok (className .cont ++ (" with " ++ str (.count (nodeArray evs).length) ++ " nodes and " ++ str (.count merged.length) ++
    " events")) = _
  rw [hstr, hstr]
  rfl

theorem after_cls {first o : Obj K V} (h : After first o) : o.cls = first.cls := by
  induction h with
  | refl => rfl
  | set o a v ha ht hl _ ih => exact ih

/-- **C154**, saved networks.  A network that is saved, after any computations, and loaded has the description of the original, merged
or not. -/
theorem C154_loaded (str : Val K V → String) (d : Disk K V) (evs merged : List (Event Nat K)) (durs : Event Nat K → K)
    (labels noTimes grid : V) (l : Option V) (o : Obj K V)
    (ho : After (newCont evs labels noTimes l) o ∨ After (newMerged evs merged durs labels noTimes grid l) o)
    (name : List Char) :
    ∃ o', load (save d o name none none) .cont name none none noTimes = .ok o' ∧ describe str o' = describe str o := by
  have hcls : o.cls = .cont := by
    rcases ho with ho | ho
    · rw [after_cls ho]
      rfl
    · rw [after_cls ho]
      rfl
  rcases ho with ho | ho
  · obtain ⟨o', h1, h2, h3⟩ := C76_round_trip_partial d evs labels noTimes l o ho name
    refine ⟨o', h1, ?_⟩
    have a1 : o'.attrs "num_nodes" = o.attrs "num_nodes" := (h3 "num_nodes").1 (by decide)
    have a2 : o'.attrs "num_events" = o.attrs "num_events" := (h3 "num_events").1 (by decide)
    unfold describe
    rw [a1, a2, h2, hcls]
  · obtain ⟨o', h1, h2, h3, -⟩ := C76_merged d evs merged durs labels noTimes grid l o ho name
    refine ⟨o', h1, ?_⟩
    have a1 : o'.attrs "num_nodes" = o.attrs "num_nodes" := h3 "num_nodes" (by decide) (by decide) (by decide)
    have a2 : o'.attrs "num_events" = o.attrs "num_events" := h3 "num_events" (by decide) (by decide) (by decide)
    unfold describe
    rw [a1, a2, h2, hcls]

/-- A text of counts. -/
def exStr : Val ℚ Unit → String
  | .count n => toString n
  | _ => "?"

example : (∀ n, exStr (.count n) = toString n) ∧
    describe exStr (newCont SaveLoad.exEvents () () none) = .ok "<class 'flowstab.temporal_network.ContTempNetwork'> with 3 nodes and 3 events" := by
  refine ⟨fun _ => rfl, ?_⟩
  rw [(C154_counts exStr (fun _ => rfl) SaveLoad.exEvents () () none).1]
  have h1 : (nodesIn SaveLoad.exEvents).card = 3 := by decide +kernel
  rw [h1]
  decide +kernel

example : After (newCont SaveLoad.exEvents () () none) ((newCont SaveLoad.exEvents () () none).set "times" (.other ())) :=
  .set _ _ _ (by decide) (by decide) (by decide) .refl

end describe

/-! ## C155 -/

section timing

variable {A R E : Type} (pid : Nat) (name elapsed : String) (f : A → List (String × Arg) → Except E R) (args : A) (kw : List (String × Arg))

/-- **C155, partial.**  If `log_message` is a text or not given, a timed function raises what the function raises and returns what it
returns.  Nothing is printed if it raises or `verbose` is not given by name or false, and else exactly one line, which ends with the
message.  Missing: other messages and `verbose` given by position. -/
theorem C155_timed_partial (hmsg : ∀ v, kw.lookup "log_message" = some v → ∃ s, v = .text s) :
    (∀ e, f args kw = .error e → timed pid name elapsed f args kw = (.error (.own e), [])) ∧
    ∀ r, f args kw = .ok r →
      ((kw.lookup "verbose" = none ∨ ∃ v, kw.lookup "verbose" = some v ∧ v.truthy = false) → timed pid name elapsed f args kw = (.ok r, [])) ∧
      ∀ v, kw.lookup "verbose" = some v → v.truthy = true → ∃ line, timed pid name elapsed f args kw = (.ok r, [line]) ∧
        (∃ rest, line = "PID  " ++ toString pid ++ " : function " ++ name ++ ", elapsed time: " ++ elapsed ++ " s" ++ rest ∧
          (kw.lookup "log_message" = none → rest = "") ∧
          ∀ s, kw.lookup "log_message" = some (.text s) → rest = if s = "" then "" else ", " ++ s) := by
  constructor
  · intro e he
    unfold timed
    rw [he]
  · intro r hr
    constructor
    · intro hv
      unfold timed
      rw [hr]
      rcases hv with hv | ⟨v, hv, ht⟩
      · simp [hv]
      · simp [hv, ht]
    · intro v hv ht
      unfold timed
      rw [hr]
      cases hl : kw.lookup "log_message" with
      | none =>
        refine ⟨"PID  " ++ toString pid ++ " : function " ++ name ++ ", elapsed time: " ++ elapsed ++ " s" ++ "", ?_, "", rfl, fun _ => rfl, ?_⟩
        · simp [hv, ht, message, hl]
        · intro s hs
          cases hs
      | some w =>
        obtain ⟨s, rfl⟩ := hmsg w hl
        refine ⟨"PID  " ++ toString pid ++ " : function " ++ name ++ ", elapsed time: " ++ elapsed ++ " s" ++ (if s = "" then "" else ", " ++ s),
          ?_, _, rfl, ?_, ?_⟩
        · by_cases hs : s = "" <;> simp [hv, ht, message, hl, hs]
        · intro h
          cases h
        · intro s' hs'
          cases hs'
          rfl

/-- **C155, violated** for messages that are not texts.  If `verbose` is given by name and true and `log_message` is none, a flag, a
number or a sequence that is not empty, a timed function raises although the function returned. -/
theorem C155_message_violated (r : R) (hr : f args kw = .ok r) (v w : Arg) (hv : kw.lookup "verbose" = some v) (ht : v.truthy = true)
    (hw : kw.lookup "log_message" = some w) (hnot : (∀ s, w ≠ .text s) ∧ w ≠ .sequence 0) :
    timed pid name elapsed f args kw = (.error .typeError, []) := by
  have hm : message kw = none := by
    unfold message
    rw [hw]
    match w, hnot with
    | .none, _ => rfl
    | .flag _, _ => rfl
    | .number _, _ => rfl
    | .text s, h => exact absurd rfl (h.1 s)
    | .sequence 0, h => exact absurd rfl h.2
    | .sequence (_ + 1), _ => rfl
  unfold timed
  rw [hr]
  simp [hv, ht, hm]

/-- **C155, violated** for `verbose` given by position: whatever the positional arguments, nothing is printed. -/
theorem C155_position_violated (hv : kw.lookup "verbose" = none) : (timed pid name elapsed f args kw).2 = [] := by
  unfold timed
  cases f args kw with
  | error e => rfl
  | ok r => simp [hv]

example : timed 7 "sparse_matmul" "1.0000e-03" (fun (a : Nat × Nat) _ => (Except.ok (a.1 * a.2) : Except Unit Nat)) (2, 3)
    [("verbose", .flag true), ("log_message", .text "ITPTk")] =
    (.ok 6, ["PID  7 : function sparse_matmul, elapsed time: 1.0000e-03 s, ITPTk"]) := by decide +kernel

example : timed 7 "sparse_matmul" "1.0000e-03" (fun (a : Nat × Nat) _ => (Except.ok (a.1 * a.2) : Except Unit Nat)) (2, 3)
    [("verbose", .flag true), ("log_message", .none)] = (.error .typeError, []) := by decide +kernel

end timing

/-! ## C156 -/

/-- **C156, partial.**  If the function has a documentation, the new one consists of it, a new line, and that of the class, if there is
one. -/
theorem C156_doc_partial (cls : Option String) (d : String) :
    ∃ s, includeDoc cls (some d) = .ok s ∧ d.toList <+: s.toList ∧ ∀ c, cls = some c → c.toList <:+ s.toList := by
  refine ⟨d ++ ("\n" ++ cls.getD ""), rfl, ?_, ?_⟩
  · rw [String.toList_append]
    exact List.prefix_append _ _
  · rintro c rfl
    rw [String.toList_append, String.toList_append, Option.getD_some]
    exact (List.suffix_append _ _).trans (List.suffix_append _ _)

/-- **C156, violated** without documentation.  If the interpreter drops the documentation (`python -OO`), decorating a function
raises, and with it the import of the package. -/
theorem C156_optimised_violated (cls : Option String) : includeDoc cls none = .error .typeError := rfl

/-! ## C157 -/

section connect

variable {K : Type} [Field K] [LinearOrder K] [IsStrictOrderedRing K]

theorem mapM_nodes {n : Nat} (l : List Nat) (h : ∀ i ∈ l, i < n) : (l.map Int.ofNat).mapM (axisIndex n) = some l := by
  induction l with
  | nil => rfl
  | cons i l ih =>
    have hi := h i (by simp)
    have h1 : axisIndex n (Int.ofNat i) = some i := by
      unfold axisIndex
      rw [if_pos ⟨Int.natCast_nonneg i, Int.ofNat_lt.2 hi⟩]
      rfl
    rw [List.map_cons, List.mapM_cons, h1, ih fun j hj => h j (by simp [hj])]
    rfl

/-- **C157, partial.**  For lists of nodes of which the first is not empty, or the second has at most one entry, the connectedness is the
sum of the covariances from the nodes of the first to those of the second; a node that is listed twice counts twice. -/
theorem C157_sum_partial {n : Nat} (S : Nat → Nat → K) (s1 s2 : List Nat) (h1 : ∀ i ∈ s1, i < n) (h2 : ∀ j ∈ s2, j < n)
    (hne : s1 ≠ [] ∨ s2.length ≤ 1) :
    connectedness n S (s1.map Int.ofNat) (s2.map Int.ofNat) = .ok (s1.map fun i => (s2.map fun j => S i j).sum).sum := by
  unfold connectedness
  rw [if_neg, mapM_nodes s1 h1, mapM_nodes s2 h2]
  rintro ⟨ha, hb⟩
  rw [List.length_map] at hb
  rcases hne with hne | hne
  · exact hne (by simpa using ha)
  · omega

/-- **C157**, sets.  For the nodes of two sets, of which the first is not empty, in any order. -/
theorem C157_sets_partial {n : Nat} (S : Nat → Nat → K) (a b : Finset Nat) (ha : ∀ i ∈ a, i < n) (hb : ∀ j ∈ b, j < n) (hne : a.Nonempty)
    (s1 s2 : List Nat) (h1 : s1.Nodup ∧ s1.toFinset = a) (h2 : s2.Nodup ∧ s2.toFinset = b) :
    connectedness n S (s1.map Int.ofNat) (s2.map Int.ofNat) = .ok (∑ i ∈ a, ∑ j ∈ b, S i j) := by
  obtain ⟨d1, rfl⟩ := h1
  obtain ⟨d2, rfl⟩ := h2
  rw [C157_sum_partial S s1 s2 (fun i hi => ha i (by simpa using hi)) (fun i hi => hb i (by simpa using hi))]
  · rw [List.sum_toFinset _ d1]
    congr 2
    exact List.map_congr_left fun i _ => (List.sum_toFinset _ d2).symm
  · left
    rintro rfl
    simp at hne

/-- **C157, violated** for an empty first list: with at least two nodes in the second list an exception is raised, although the sum is
zero; with the lists exchanged the sum is returned. -/
theorem C157_empty_violated {n : Nat} (S : Nat → Nat → K) (s : List Nat) (h : ∀ i ∈ s, i < n) (h2 : 2 ≤ s.length) :
    connectedness n S [] (s.map Int.ofNat) = .error .indexError ∧ connectedness n S (s.map Int.ofNat) [] = .ok 0 := by
  constructor
  · unfold connectedness
    rw [if_pos ⟨rfl, by simpa using h2⟩]
  · have := C157_sum_partial S s [] h (by simp) (.inr (by simp))
    rw [List.map_nil] at this
    rw [this]
    simp

/-- **C157**, other numbers.  A number that is not a node of the network, nor the negative of a position counted from the end, raises an
exception; a negative one counts from the end. -/
theorem C157_numbers {n : Nat} (S : Nat → Nat → K) (i j : Int) :
    ((i < -n ∨ (n : Int) ≤ i ∨ j < -n ∨ (n : Int) ≤ j) → connectedness n S [i] [j] = .error .indexError) ∧
    (-n ≤ i → i < 0 → 0 ≤ j → j < n → connectedness n S [i] [j] = .ok (S (n + i).toNat j.toNat)) := by
  constructor
  · intro h
    have hcase : axisIndex n i = none ∨ axisIndex n j = none := by
      unfold axisIndex
      rcases h with h | h | h | h
      · left; rw [if_neg (by omega), if_neg (by omega)]
      · left; rw [if_neg (by omega), if_neg (by omega)]
      · right; rw [if_neg (by omega), if_neg (by omega)]
      · right; rw [if_neg (by omega), if_neg (by omega)]
    unfold connectedness
    rw [if_neg (by simp)]
    rcases hcase with hc | hc
    · simp [List.mapM_cons, hc]
    · cases hi : axisIndex n i <;> simp [List.mapM_cons, hc, hi]
  · intro h1 h2 h3 h4
    have hi : axisIndex n i = some (n + i).toNat := by
      unfold axisIndex
      rw [if_neg (by omega), if_pos (by omega), add_comm]
    have hj : axisIndex n j = some j.toNat := by
      unfold axisIndex
      rw [if_pos (by omega)]
    unfold connectedness
    rw [if_neg (by simp)]
    simp [List.mapM_cons, hi, hj]

example : connectedness 3 (fun i j => (i : ℚ) + 10 * j) [0, 2] [1, 2] = .ok 64 := by decide +kernel

end connect

end Verif.Extras
