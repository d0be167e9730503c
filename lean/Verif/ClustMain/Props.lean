import Verif.ClustMain.Lemmas
import Verif.Scripts.Cluster

/-! # `run_clusterings` clusters the integrals of the network (C139) -/

namespace Verif.ClustMain

open Verif.CovMain
open Verif.Scripts (Kind)

/-! ## Which files are chosen -/

theorem same_net {a b r : Text} (ha : ¬ "_tau_w".toList <:+: a) (hb : ¬ "_tau_w".toList <:+: b)
    (h : a ++ "_tau_w".toList <+: b ++ ("_tau_w".toList ++ r)) : a = b := by
  rcases Nat.lt_trichotomy a.length b.length with hlt | heq | hlt
  · exact absurd (scale_inside h hlt) hb
  · obtain ⟨t, h⟩ := h
    rw [List.append_assoc] at h
    exact (List.append_inj h heq).1
  · obtain ⟨t, h⟩ := h
    have : b ++ "_tau_w".toList <+: a ++ ("_tau_w".toList ++ t) := ⟨r, by rw [List.append_assoc, ← h, List.append_assoc]⟩
    exact absurd (scale_inside this hlt) ha

theorem temp_has (round : ℚ → Four) (net : Text) (tau : ℚ) (k : Kind) (i j : Nat) :
    "temp_integration".toList <:+: Out.name round net (.temp tau k i j) := by
  refine ⟨net ++ ("_tau_w".toList ++ ((round tau).text ++ "_".toList)), "_".toList ++ (linPart k ++
      (padded 6 i ++ ("_to_".toList ++ (padded 6 j ++ ".pickle".toList)))), ?_⟩
  have : "_temp_integration_".toList = "_".toList ++ ("temp_integration".toList ++ "_".toList) := by decide
  unfold Out.name
  rw [this]
  simp only [List.append_assoc]

/-- **C139, the files that are clustered.** In a directory with files that `run_cov_integrals` wrote
for any networks, with names that have none of the three texts in them that the script looks for,
exactly the finished integrals of the network are chosen, each once and in the order of the
directory. -/
theorem C139_selected_partial (round : ℚ → Four) (net : Text) (hn : Plain net) (direction : Text)
    (dir : List (Text × Out)) (hd : ∀ q ∈ dir, Plain q.1 ∧ q.2.FromCov) :
    select net false direction (dir.map fun q => Out.name round q.1 q.2) =
      some ((dir.filter fun q => decide (q.1 = net ∧ q.2.Finished)).map fun q => Out.name round q.1 q.2) := by
  unfold select
  simp only [Bool.false_eq_true, if_false, Option.some.injEq, List.filter_map]
  congr 1
  apply List.filter_congr
  rintro ⟨a, o⟩ hq
  obtain ⟨hp, hc⟩ := hd _ hq
  simp only [Function.comp_apply] at hp hc ⊢
  cases o with
  | laps e => exact absurd hc (by simp [Out.FromCov])
  | temp tau k i j =>
    have := (has_iff _ _).2 (temp_has round a tau k i j)
    rw [this]
    simp only [Bool.not_true, Bool.and_false, Bool.false_and, Out.Finished, and_false, decide_false]
  | integral tau k i j =>
    have h := integral_texts round hp.temp hp.other tau k i j
    have h1 : has "temp_integration".toList (Out.name round a (.integral tau k i j)) = false := by
      rw [← Bool.not_eq_true, has_iff]; exact h.1
    have h2 : has "pTpint".toList (Out.name round a (.integral tau k i j)) = false := by
      rw [← Bool.not_eq_true, has_iff]; exact h.2
    rw [h1, h2]
    simp only [Bool.not_false, Bool.and_true, Out.Finished, and_true]
    rw [Bool.eq_iff_iff, List.isPrefixOf_iff_prefix, decide_eq_true_iff]
    constructor
    · intro hpre
      unfold Out.name at hpre
      exact (same_net hn.scale hp.scale hpre).symm
    · rintro rfl
      unfold Out.name
      exact ⟨_, by rw [List.append_assoc]⟩

/-- **C139, violated for some names of networks.** If the name of the network has one of the two
unwanted texts in it, no file is ever chosen. -/
theorem C139_name_violated (net : Text) (h : "temp_integration".toList <:+: net ∨ "pTpint".toList <:+: net)
    (direction : Text) (dir : List Text) : select net false direction dir = some [] := by
  unfold select
  simp only [Bool.false_eq_true, if_false, Option.some.injEq, List.filter_eq_nil_iff]
  intro f _ hf
  simp only [Bool.and_eq_true, List.isPrefixOf_iff_prefix, Bool.not_eq_true'] at hf
  obtain ⟨⟨⟨t, hp⟩, h1⟩, h2⟩ := hf
  have hin : net <:+: f := ⟨[], "_tau_w".toList ++ t, by rw [← hp]; simp⟩
  rcases h with h | h
  · have := (has_iff _ _).2 (h.trans hin)
    rw [h1] at this; simp at this
  · have := (has_iff _ _).2 (h.trans hin)
    rw [h2] at this; simp at this

/-- **C139, violated for networks whose names go on with a time scale.** The integrals of another
network, whose name is that of the network followed by `_tau_w` and anything without the unwanted
texts, are chosen too. -/
theorem C139_other_violated (round : ℚ → Four) (net s : Text) (hp : ¬ "temp_integration".toList <:+: net ++ "_tau_w".toList ++ s)
    (hp2 : ¬ "pTpint".toList <:+: net ++ "_tau_w".toList ++ s) (direction : Text) (tau : ℚ) (k : Kind) (i j : Nat) :
    select net false direction [Out.name round (net ++ "_tau_w".toList ++ s) (.integral tau k i j)] =
      some [Out.name round (net ++ "_tau_w".toList ++ s) (.integral tau k i j)] := by
  have h := integral_texts round hp hp2 tau k i j
  unfold select
  simp only [Bool.false_eq_true, if_false, Option.some.injEq, List.filter_eq_self, List.mem_singleton, forall_eq,
    Bool.and_eq_true, List.isPrefixOf_iff_prefix, Bool.not_eq_true']
  refine ⟨⟨?_, ?_⟩, ?_⟩
  · unfold Out.name
    exact ⟨s ++ ("_tau_w".toList ++ ((round tau).text ++ ("_PT_".toList ++ (linPart k ++ (padded 6 i ++ ("_to_".toList ++
      (padded 6 j ++ ".pickle".toList))))))), by simp only [List.append_assoc]⟩
  · rw [← Bool.not_eq_true, has_iff]; exact h.1
  · rw [← Bool.not_eq_true, has_iff]; exact h.2

/-- **C139, violated in a directory with the matrices.** Every file with matrices of the network is
chosen as if it were an integral, if `run_cov_integrals` keeps its results in the directory of the
matrices. -/
theorem C139_matrices_violated (round : ℚ → Four) (net : Text) (hp : Plain net) (direction : Text) (tau : ℚ) (k : Nat)
    (w : Laps.What) (ext : Text) (hk : (Entry.mats tau k w ext).Known) (dir : List Text)
    (hd : Entry.name net round (.mats tau k w ext) ∈ dir) :
    ∃ l, select net false direction dir = some l ∧ Entry.name net round (.mats tau k w ext) ∈ l := by
  have h := mats_texts round hp.temp hp.other tau k w ext hk
  unfold select
  simp only [Bool.false_eq_true, if_false]
  refine ⟨_, rfl, List.mem_filter.2 ⟨hd, ?_⟩⟩
  simp only [Bool.and_eq_true, List.isPrefixOf_iff_prefix, Bool.not_eq_true']
  refine ⟨⟨?_, ?_⟩, ?_⟩
  · unfold Entry.name
    exact ⟨(round tau).text ++ ("_int".toList ++ (padded 6 k ++ ("_".toList ++ (w.suffix ++ ext)))),
      by simp only [List.append_assoc]⟩
  · rw [← Bool.not_eq_true, has_iff]; exact h.1
  · rw [← Bool.not_eq_true, has_iff]; exact h.2

/-! ## Initial probabilities -/

theorem no_T (round : ℚ → Four) (o : Out) (hk : o.Known) (b : Char) (hb : b ≠ '_') :
    pair 'T' b (Out.name round [] o) = false := by
  cases o with
  | integral tau k i j =>
    refine pair_integral round (by decide) (by decide) (by decide) (by decide) (by decide) ?_ ?_ ?_ ?_ ?_ tau k i j
    · exact pair_none (by decide)
    · refine ⟨?_, by decide⟩
      have : ('_' == b) = false := by simpa using hb.symm
      have e : "_PT_".toList = ['_', 'P', 'T', '_'] := by decide
      rw [e]
      simp [pair, this]
    · exact pair_none (by decide)
    · exact pair_none (by decide)
    · exact (pair_none (by decide)).1
  | temp tau k i j =>
    refine (pair_none ?_).1
    unfold Out.name
    simp only [List.mem_append, not_or]
    refine ⟨by simp, by decide, not_text _ (by decide) (by decide) (by decide) (by decide) (by decide), by decide, ?_,
      not_padded _ _ (by decide), by decide, not_padded _ _ (by decide), by decide⟩
    cases k <;> decide
  | laps e =>
    refine (pair_none ?_).1
    cases e with
    | mats tau k w ext =>
      unfold Out.name Entry.name
      simp only [List.mem_append, not_or]
      have hext : 'T' ∉ ext := by
        rcases hk with rfl | rfl | rfl <;> decide
      refine ⟨⟨⟨⟨⟨⟨⟨by simp, by decide⟩, not_text _ (by decide) (by decide) (by decide) (by decide) (by decide)⟩,
        by decide⟩, not_padded _ _ (by decide)⟩, by decide⟩, ?_⟩, hext⟩
      rcases w with (_ | _) | ⟨_ | _, _ | _⟩ | ⟨_ | _, _ | _⟩ <;> decide
    | adjacency k =>
      unfold Out.name Entry.name
      simp only [List.mem_append, not_or]
      exact ⟨⟨⟨by simp, by decide⟩, not_padded _ _ (by decide)⟩, by decide⟩

/-- **C139, violated for initial probabilities.** With `init_p1` and either direction no file of the
other scripts is chosen, for any networks whose names do not have the texts in them that the script
looks for: it ends without clustering anything. -/
theorem C139_init_p1_violated (round : ℚ → Four) (net : Text) (direction : Text)
    (hdir : direction = "forward".toList ∨ direction = "backward".toList) (dir : List (Text × Out))
    (hd : ∀ q ∈ dir, q.2.Known ∧ ¬ "PTforw".toList <:+: q.1 ∧ ¬ "PTback".toList <:+: q.1) :
    select net true direction (dir.map fun q => Out.name round q.1 q.2) = some [] := by
  have key : ∀ q ∈ dir, has "PTforw".toList (Out.name round q.1 q.2) = false ∧
      has "PTback".toList (Out.name round q.1 q.2) = false := by
    intro q hq
    obtain ⟨hk, h1, h2⟩ := hd q hq
    obtain ⟨r, e1, e2⟩ := name_rest round q.1 q.2
    constructor
    · rw [← Bool.not_eq_true, has_iff, e1]
      intro h
      rcases no_underscore_cross (by decide) h with h | h
      · exact h1 h
      · rw [← e2] at h
        have hT : ('T' :: 'f' :: "orw".toList) <:+: Out.name round [] q.2 :=
          List.IsInfix.trans ⟨['P'], [], by decide⟩ h
        have := pair_of_infix hT
        rw [no_T round q.2 hk _ (by decide)] at this
        simp at this
    · rw [← Bool.not_eq_true, has_iff, e1]
      intro h
      rcases no_underscore_cross (by decide) h with h | h
      · exact h2 h
      · rw [← e2] at h
        have hT : ('T' :: 'b' :: "ack".toList) <:+: Out.name round [] q.2 :=
          List.IsInfix.trans ⟨['P'], [], by decide⟩ h
        have := pair_of_infix hT
        rw [no_T round q.2 hk _ (by decide)] at this
        simp at this
  unfold select
  simp only [if_true]
  rcases hdir with rfl | rfl
  · rw [if_pos rfl]
    simp only [Option.some.injEq, List.filter_eq_nil_iff]
    intro f hf h
    obtain ⟨q, hq, rfl⟩ := List.mem_map.1 (List.mem_of_mem_filter hf)
    rw [(key q hq).1] at h
    simp at h
  · rw [if_neg (by decide), if_pos rfl]
    simp only [Option.some.injEq, List.filter_eq_nil_iff]
    intro f hf h
    obtain ⟨q, hq, rfl⟩ := List.mem_map.1 (List.mem_of_mem_filter hf)
    rw [(key q hq).2] at h
    simp at h

/-! ## Different integrals have different files -/

/-- The parts of a name after those of the network, from the last one. -/
def tailParts (round : ℚ → Four) : Out → List Text
  | .integral tau k i j => [padded 6 j, "to".toList, padded 6 i] ++
      (match k with | .expm => [] | .lin => ["lin".toList]) ++ ["PT".toList, 'w' :: (round tau).text, "tau".toList]
  | .temp tau k i j => [padded 6 j, "to".toList, padded 6 i] ++
      (match k with | .expm => [] | .lin => ["lin".toList]) ++
      ["integration".toList, "temp".toList, 'w' :: (round tau).text, "tau".toList]
  | .laps _ => []

theorem split_padded (w n : Nat) : split (padded w n) = [padded w n] := split_one (not_padded w n (by decide))

theorem stem_pickle (x : Text) (c : Char) (hc : c ≠ '.') (hx : c ∈ x) : stem (x ++ ".pickle".toList) = x := by
  have e : ".pickle".toList = '.' :: "pickle".toList := by decide
  rw [e]
  exact stem_dot x _ (by decide) (List.any_eq_true.2 ⟨c, hx, by simpa using hc⟩)

theorem parts_points (x : Text) (i j : Nat) :
    (split (stem (x ++ '_' :: (padded 6 i ++ ("_to_".toList ++ (padded 6 j ++ ".pickle".toList)))))).reverse =
      padded 6 j :: "to".toList :: padded 6 i :: (split x).reverse := by
  have e : x ++ '_' :: (padded 6 i ++ ("_to_".toList ++ (padded 6 j ++ ".pickle".toList))) =
      (x ++ '_' :: (padded 6 i ++ '_' :: ("to".toList ++ '_' :: padded 6 j))) ++ ".pickle".toList := by
    have : "_to_".toList = '_' :: ("to".toList ++ ['_']) := by decide
    rw [this]
    simp
  rw [e, stem_pickle _ '_' (by decide) (by simp), split_append, split_append, split_append, split_padded, split_padded,
    split_one (s := "to".toList) (by decide)]
  simp

/-- The parts of the name of an integral. -/
theorem parts_out (round : ℚ → Four) (net : Text) (o : Out) (hc : o.FromCov) :
    (split (stem (Out.name round net o))).reverse = tailParts round o ++ (split net).reverse := by
  have hw : ∀ tau, split ('w' :: (round tau).text) = ['w' :: (round tau).text] := fun tau =>
    split_one (by
      simp only [List.mem_cons, not_or]
      exact ⟨by decide, not_text _ (by decide) (by decide) (by decide) (by decide) (by decide)⟩)
  have e1 : "_tau_w".toList = '_' :: ("tau".toList ++ ['_', 'w']) := by decide
  cases o with
  | laps e => exact absurd hc (by simp [Out.FromCov])
  | integral tau k i j =>
    cases k with
    | expm =>
      have : Out.name round net (.integral tau .expm i j) =
          (net ++ '_' :: ("tau".toList ++ '_' :: (('w' :: (round tau).text) ++ '_' :: "PT".toList))) ++ '_' ::
            (padded 6 i ++ ("_to_".toList ++ (padded 6 j ++ ".pickle".toList))) := by
        have e2 : "_PT_".toList = '_' :: ("PT".toList ++ ['_']) := by decide
        unfold Out.name linPart
        rw [e1, e2]
        simp
      rw [this, parts_points, split_append, split_append, split_append, hw, split_one (s := "tau".toList) (by decide),
        split_one (s := "PT".toList) (by decide)]
      simp [tailParts]
    | lin =>
      have : Out.name round net (.integral tau .lin i j) =
          (net ++ '_' :: ("tau".toList ++ '_' :: (('w' :: (round tau).text) ++ '_' :: ("PT".toList ++ '_' ::
            "lin".toList)))) ++ '_' :: (padded 6 i ++ ("_to_".toList ++ (padded 6 j ++ ".pickle".toList))) := by
        have e2 : "_PT_".toList = '_' :: ("PT".toList ++ ['_']) := by decide
        have e3 : "lin_".toList = "lin".toList ++ ['_'] := by decide
        unfold Out.name linPart
        rw [e1, e2]
        simp only [e3]
        simp
      rw [this, parts_points, split_append, split_append, split_append, split_append, hw,
        split_one (s := "tau".toList) (by decide), split_one (s := "PT".toList) (by decide),
        split_one (s := "lin".toList) (by decide)]
      simp [tailParts]
  | temp tau k i j =>
    have e2 : "_temp_integration_".toList = '_' :: ("temp".toList ++ '_' :: ("integration".toList ++ ['_'])) := by decide
    cases k with
    | expm =>
      have : Out.name round net (.temp tau .expm i j) =
          (net ++ '_' :: ("tau".toList ++ '_' :: (('w' :: (round tau).text) ++ '_' :: ("temp".toList ++ '_' ::
            "integration".toList)))) ++ '_' :: (padded 6 i ++ ("_to_".toList ++ (padded 6 j ++ ".pickle".toList))) := by
        unfold Out.name linPart
        rw [e1, e2]
        simp
      rw [this, parts_points, split_append, split_append, split_append, split_append, hw,
        split_one (s := "tau".toList) (by decide), split_one (s := "temp".toList) (by decide),
        split_one (s := "integration".toList) (by decide)]
      simp [tailParts]
    | lin =>
      have : Out.name round net (.temp tau .lin i j) =
          (net ++ '_' :: ("tau".toList ++ '_' :: (('w' :: (round tau).text) ++ '_' :: ("temp".toList ++ '_' ::
            ("integration".toList ++ '_' :: "lin".toList))))) ++ '_' ::
            (padded 6 i ++ ("_to_".toList ++ (padded 6 j ++ ".pickle".toList))) := by
        have e3 : "lin_".toList = "lin".toList ++ ['_'] := by decide
        unfold Out.name linPart
        rw [e1, e2]
        simp only [e3]
        simp
      rw [this, parts_points, split_append, split_append, split_append, split_append, split_append, hw,
        split_one (s := "tau".toList) (by decide), split_one (s := "temp".toList) (by decide),
        split_one (s := "integration".toList) (by decide), split_one (s := "lin".toList) (by decide)]
      simp [tailParts]

theorem padded_inj {w a b : Nat} (h : padded w a = padded w b) : a = b := by
  have := congrArg number h
  rwa [padded_number, padded_number] at this

/-- **C139, no two integrals share a file.** Two files of `run_cov_integrals` have the same name only
if they belong to the same network and to the same kind, points and written time scale, whatever the
names of the networks; and so do the files in which `run_clusterings` keeps their clusterings. -/
theorem C139_distinct (round : ℚ → Four) (net net' : Text) (o o' : Out) (hc : o.FromCov) (hc' : o'.FromCov)
    (h : Out.name round net o = Out.name round net' o' ∨
      resultName (Out.name round net o) = resultName (Out.name round net' o') ∨
      tmpName (Out.name round net o) = tmpName (Out.name round net' o')) :
    net = net' ∧ Out.Alike round o o' := by
  have hname : Out.name round net o = Out.name round net' o' := by
    rcases h with h | h | h
    · exact h
    · exact List.append_cancel_left h
    · exact List.append_cancel_left h
  have h := congrArg (fun s => (split (stem s)).reverse) hname
  rw [parts_out round net o hc, parts_out round net' o' hc'] at h
  have halike : Out.Alike round o o' := by
    rcases o with ⟨tau, _ | _, i, j⟩ | ⟨tau, _ | _, i, j⟩ | e <;>
    rcases o' with ⟨tau', _ | _, i', j'⟩ | ⟨tau', _ | _, i', j'⟩ | e' <;>
    first
    | exact False.elim hc
    | exact False.elim hc'
    | (simp only [tailParts, List.cons_append, List.nil_append, List.append_nil, List.cons.injEq, true_and] at h
       obtain ⟨hj, hi, h⟩ := h
       have hj := padded_inj hj
       have hi := padded_inj hi
       first
       | exact ⟨(by simpa using h.1), rfl, hi, hj⟩
       | exact absurd h.1 (by decide))
  refine ⟨?_, halike⟩
  have hrest : Out.name round [] o = Out.name round [] o' := by
    rcases o with ⟨tau, k, i, j⟩ | ⟨tau, k, i, j⟩ | e <;>
    rcases o' with ⟨tau', k', i', j'⟩ | ⟨tau', k', i', j'⟩ | e' <;>
    first
    | exact False.elim halike
    | (obtain ⟨h1, rfl, rfl, rfl⟩ := halike
       simp only [Out.name, h1])
  obtain ⟨r, a1, a2⟩ := name_rest round net o
  obtain ⟨r', b1, b2⟩ := name_rest round net' o'
  rw [a2, b2] at hrest
  rw [a1, b1, hrest] at hname
  exact List.append_cancel_right hname

/-- **C139, results and clusterings are kept apart.** The file of a result is never that of the
clusterings of another one. -/
theorem C139_result_tmp (f g : Text) : resultName f ≠ tmpName g := by
  intro h
  have e1 : "clusters_".toList = 'c' :: "lusters_".toList := by decide
  have e2 : "tmpclusters_".toList = 't' :: "mpclusters_".toList := by decide
  unfold resultName tmpName at h
  rw [e1, e2, List.cons_append, List.cons_append, List.cons.injEq] at h
  exact absurd h.1 (by decide)

theorem result_prefix {net x : Text} {a b : Text} (hb : ∀ n < a.length, a[n]? ≠ some '_') (hn : ¬ a <+: net)
    (h : net ++ '_' :: b <+: a ++ '_' :: x) : False := by
  obtain ⟨t, ht⟩ := h
  rcases Nat.lt_or_ge net.length a.length with hl | hl
  · have h1 := congrArg (fun s : Text => s[net.length]?) ht
    simp only [List.append_assoc, List.cons_append] at h1
    rw [List.getElem?_append_right (Nat.le_refl _), List.getElem?_append_left hl] at h1
    simp only [Nat.sub_self, List.getElem?_cons_zero] at h1
    exact hb _ hl h1.symm
  · refine hn (List.prefix_of_prefix_length_le (l₃ := a ++ '_' :: x) ⟨_, rfl⟩ ⟨'_' :: b ++ t, ?_⟩ hl)
    rw [← ht]; simp

/-- **C139, results are not taken for integrals.** Results and clusterings that are kept in the
directory of the integrals are not chosen, by any options, if the name of the network does not begin
as their names do. -/
theorem C139_results (net : Text) (h1 : ¬ "clusters".toList <+: net) (h2 : ¬ "tmpclusters".toList <+: net)
    (initP1 : Bool) (direction : Text) (dir l : List Text) (hs : select net initP1 direction dir = some l) (f : Text) :
    resultName f ∉ l ∧ tmpName f ∉ l := by
  have hl : ∀ g ∈ l, net ++ "_tau_w".toList <+: g := by
    intro g hg
    unfold select at hs
    simp only at hs
    split at hs
    · split at hs
      · rw [← Option.some.inj hs, List.mem_filter, List.mem_filter] at hg
        simp only [Bool.and_eq_true, List.isPrefixOf_iff_prefix] at hg
        exact hg.1.2.1.1
      · split at hs
        · rw [← Option.some.inj hs, List.mem_filter, List.mem_filter] at hg
          simp only [Bool.and_eq_true, List.isPrefixOf_iff_prefix] at hg
          exact hg.1.2.1.1
        · simp at hs
    · rw [← Option.some.inj hs, List.mem_filter] at hg
      simp only [Bool.and_eq_true, List.isPrefixOf_iff_prefix] at hg
      exact hg.2.1.1
  have e0 : "_tau_w".toList = '_' :: "tau_w".toList := by decide
  have e1 : "clusters_".toList = "clusters".toList ++ '_' :: [] := by decide
  have e2 : "tmpclusters_".toList = "tmpclusters".toList ++ '_' :: [] := by decide
  constructor
  · intro hm
    have := hl _ hm
    unfold resultName at this
    rw [e0, e1, List.append_assoc, List.cons_append] at this
    exact result_prefix (by decide) h1 this
  · intro hm
    have := hl _ hm
    unfold tmpName at this
    rw [e0, e2, List.append_assoc, List.cons_append] at this
    exact result_prefix (by decide) h2 this

/-! ## Static networks -/

/-- **C139, the adjacency matrix of an integral.** The points of an integral are read correctly from
its name, for all networks: the matrix that is looked for is that between the two points, in the
order of time. -/
theorem C139_points (round : ℚ → Four) (net net' : Text) (tau : ℚ) (k : Kind) (i j : Nat) :
    wanted net (Out.name round net' (.integral tau k i j)) = some (adjName net (min i j) (max i j)) := by
  unfold wanted
  rw [parts_out round net' (.integral tau k i j) trivial]
  simp only [tailParts, List.cons_append, pyInt_padded (show 0 < 6 by decide)]

theorem parts_adj (net : Text) (a b : Nat) : ∃ t, (split (stem (adjName net a b))).reverse =
    padded 6 b :: "to".toList :: padded 6 a :: "A".toList :: t := by
  have : adjName net a b = (net ++ '_' :: ("static".toList ++ '_' :: "A".toList)) ++ '_' ::
      (padded 6 a ++ ("_to_".toList ++ (padded 6 b ++ ".pickle".toList))) := by
    have e : "_static_A_".toList = '_' :: ("static".toList ++ '_' :: ("A".toList ++ ['_'])) := by decide
    unfold adjName
    rw [e]
    simp
  rw [this, parts_points, split_append, split_append, split_one (s := "A".toList) (by decide)]
  exact ⟨_, by simp; rfl⟩

theorem before_digits {p q d e : Text} {x y : Char} (hd : ∀ c ∈ d, isDigit c = true) (he : ∀ c ∈ e, isDigit c = true)
    (hx : isDigit x = false) (hy : isDigit y = false) (h : p ++ x :: d = q ++ y :: e) : x = y := by
  have h1 := congrArg (fun s => s.reverse.dropWhile isDigit) h
  simp only [List.reverse_append, List.reverse_cons, List.append_assoc, List.singleton_append] at h1
  rw [(takeWhile_stop (fun c hc => hd c (List.mem_reverse.1 hc)) hx _).2,
    (takeWhile_stop (fun c hc => he c (List.mem_reverse.1 hc)) hy _).2] at h1
  exact (List.cons.inj h1).1

theorem adj_laps (round : ℚ → Four) (net net' : Text) (a b : Nat) (e : Entry) (hk : e.Known)
    (h : e.name net' round = adjName net a b) : False := by
  have hadj : adjName net a b = (net ++ ("_static_A_".toList ++ (padded 6 a ++ "_to".toList))) ++ '_' :: padded 6 b ++
      ".pickle".toList := by
    have : "_to_".toList = "_to".toList ++ ['_'] := by decide
    unfold adjName
    rw [this]
    simp
  rw [hadj] at h
  cases e with
  | adjacency k =>
    have e1 : "_static_adjacency_int".toList = "_static_adjacency_in".toList ++ ['t'] := by decide
    unfold Entry.name at h
    have h := List.append_cancel_right h
    rw [e1, ← List.append_assoc, List.append_assoc _ ['t'], List.singleton_append] at h
    exact absurd (before_digits (padded_all _ _) (padded_all _ _) (by decide) (by decide) h) (by decide)
  | mats tau k w ext =>
    unfold Entry.name at h
    have hz : ∀ (x y z : Text), x ++ (y ++ "gz".toList) ≠ z ++ ".pickle".toList := by
      intro x y z hz
      have := congrArg List.getLast? hz
      have e1 : "gz".toList = ['g', 'z'] := by decide
      have e2 : ".pickle".toList = ".pickl".toList ++ ['e'] := by decide
      rw [e1, e2] at this
      simp at this
    rcases hk with rfl | rfl | rfl
    · have h := List.append_cancel_right h
      have hw : ∃ s, w.suffix = s ++ ['t'] := by
        rcases w with (_ | _) | ⟨_ | _, _ | _⟩ | ⟨_ | _, _ | _⟩ <;>
        exact ⟨_, (List.dropLast_append_getLast (l := _) (by decide)).symm⟩
      obtain ⟨s, hs⟩ := hw
      rw [hs, ← List.append_assoc] at h
      exact absurd (before_digits (d := []) (by simp) (padded_all _ _) (by decide) (by decide) h) (by decide)
    · exact hz _ ".".toList _ h
    · exact hz _ ".pickle.".toList _ h

/-- **C139, violated for static networks.** The adjacency matrix that is looked for is in none of the
files that the other scripts write, for any network, any points and any files. -/
theorem C139_static_violated (round : ℚ → Four) (net net' : Text) (a b : Nat) (o : Out) (hk : o.Known) :
    Out.name round net' o ≠ adjName net a b := by
  intro h
  obtain ⟨t, ht⟩ := parts_adj net a b
  cases o with
  | laps e => exact adj_laps round net net' a b e hk h
  | integral tau k i j =>
    have := parts_out round net' (.integral tau k i j) trivial
    rw [h, ht] at this
    cases k with
    | expm =>
      simp only [tailParts, List.cons_append, List.nil_append, List.cons.injEq, true_and] at this
      exact absurd this.2.2.1 (by decide)
    | lin =>
      simp only [tailParts, List.cons_append, List.nil_append, List.cons.injEq, true_and] at this
      exact absurd this.2.2.1 (by decide)
  | temp tau k i j =>
    have := parts_out round net' (.temp tau k i j) trivial
    rw [h, ht] at this
    cases k with
    | expm =>
      simp only [tailParts, List.cons_append, List.nil_append, List.cons.injEq, true_and] at this
      exact absurd this.2.2.1 (by decide)
    | lin =>
      simp only [tailParts, List.cons_append, List.nil_append, List.cons.injEq, true_and] at this
      exact absurd this.2.2.1 (by decide)

/-- **C139, violated: static networks are never clustered.** Without the adjacency matrix, no run
writes a result with clusters of the static network, whatever the options, the random numbers and
the files that are there. -/
theorem C139_no_static_violated {K : Type} [Field K] [LinearOrder K] [IsStrictOrderedRing K]
    (nvi : Scripts.Cluster.Clusters → Scripts.Cluster.Clusters → Nat → K) (cfg : Scripts.Cluster.Cfg)
    (r : Scripts.Cluster.Rand K) (ha : r.adjacency = false) (d : Scripts.Cluster.Disk K) (res : Scripts.Cluster.Res K)
    (h : .res res ∈ (Scripts.Cluster.worker nvi cfg r d).log) : res.static = none := by
  unfold Scripts.Cluster.worker at h
  simp only [ha, Bool.and_false, Bool.or_false, Bool.false_eq_true, if_false] at h
  split at h
  · simp at h
  · split at h
    · simp at h
    · split at h
      · simp at h
        rw [h]
      · split at h
        · simp at h
        · simp at h
        · split at h
          · simp at h
          · simp only [Option.map_none, List.mem_append, List.mem_singleton, Scripts.Cluster.Write.res.injEq] at h
            rcases h with h | h
            · split at h
              · simp at h
              · split at h
                · simp at h
                · simp at h
            · rw [h]

/-! ## Examples -/

/-- A network that meets the hypotheses, in a directory with integrals of two networks, one of them
not finished. -/
example : Plain "mice".toList ∧ Plain "mice_2".toList ∧
    select "mice".toList false [] ([("mice".toList, Out.integral 1 .expm 0 3), ("mice_2".toList, .integral 1 .expm 0 3),
      ("mice".toList, .temp 1 .lin 3 0), ("mice".toList, .integral 1 .lin 3 0)].map
        fun q => Out.name (fun _ => ⟨1000, 0, by decide⟩) q.1 q.2) =
      some ["mice_tau_w1.000e+00_PT_000000_to_000003.pickle".toList,
        "mice_tau_w1.000e+00_PT_lin_000003_to_000000.pickle".toList] := by
  have no : ∀ s t : Text, has s t = false → ¬ s <:+: t := fun s t h => by
    rw [← Bool.not_eq_true, has_iff] at h; exact h
  refine ⟨⟨no _ _ (by decide), no _ _ (by decide), no _ _ (by decide)⟩,
    ⟨no _ _ (by decide), no _ _ (by decide), no _ _ (by decide)⟩, ?_⟩
  decide +kernel

/-- The file that is looked for, and one that is there. -/
example : wanted "mice".toList "mice_tau_w1.000e+00_PT_000003_to_000000.pickle".toList =
      some "mice_static_A_000000_to_000003.pickle".toList ∧
    Entry.name "mice".toList (fun _ => ⟨1000, 0, by decide⟩) (.adjacency 0) =
      "mice_static_adjacency_int000000.pickle".toList := by
  decide +kernel

end Verif.ClustMain
