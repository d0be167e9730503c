import Verif.CovMain.ScanSpec
import Verif.CovMain.ScanLemmas

/-!
# What `run_cov_integrals` finds in its directory (C136)
-/

namespace Verif.CovMain

open Verif.Laps (What)

/-- A part that is an exception. -/
def Bad (s : Text) : Prop :=
  (hasInt s = true ∧ pyInt (s.drop 3) = none) ∨ (hasInt s = false ∧ s.head? = some 'w' ∧ pyFloat (s.drop 1) = none)

theorem scanParts_none (l : List Text) : ∀ acc, l.foldlM scanPart acc = none ↔ ∃ s ∈ l, Bad s := by
  induction l with
  | nil => intro acc; simp [List.foldlM_nil]
  | cons s l ih =>
    intro acc
    rw [List.foldlM_cons]
    have hs : scanPart acc s = none ↔ Bad s := by
      unfold scanPart Bad
      cases h : hasInt s
      · by_cases hw : s.head? = some 'w'
        · simp [hw]
        · simp [hw]
      · simp
    cases hp : scanPart acc s with
    | none =>
      simp only [Option.bind_eq_bind, Option.bind_none, true_iff]
      exact ⟨s, by simp, hs.1 hp⟩
    | some acc' =>
      have hnb : ¬ Bad s := fun hb => by rw [hs.2 hb] at hp; cases hp
      simp only [Option.bind_eq_bind, Option.bind_some, ih]
      constructor
      · rintro ⟨t, ht, hb⟩; exact ⟨t, by simp [ht], hb⟩
      · rintro ⟨t, ht, hb⟩
        rw [List.mem_cons] at ht
        rcases ht with rfl | ht
        · exact absurd hb hnb
        · exact ⟨t, ht, hb⟩

theorem scanParts_some (l : List Text) : ∀ acc r, l.foldlM scanPart acc = some r →
    (∀ k, k ∈ r.1 ↔ k ∈ acc.1 ∨ ∃ s ∈ l, hasInt s = true ∧ pyInt (s.drop 3) = some k) ∧
    (∀ v, v ∈ r.2 ↔ v ∈ acc.2 ∨ ∃ s ∈ l, hasInt s = false ∧ s.head? = some 'w' ∧ pyFloat (s.drop 1) = some v) := by
  induction l with
  | nil =>
    intro acc r h
    rw [List.foldlM_nil] at h
    cases h
    simp
  | cons s l ih =>
    intro acc r h
    rw [List.foldlM_cons] at h
    cases hp : scanPart acc s with
    | none => rw [hp] at h; cases h
    | some acc' =>
      rw [hp] at h
      obtain ⟨h1, h2⟩ := ih acc' r h
      have hs : (∀ k, k ∈ acc'.1 ↔ k ∈ acc.1 ∨ (hasInt s = true ∧ pyInt (s.drop 3) = some k)) ∧
          (∀ v, v ∈ acc'.2 ↔ v ∈ acc.2 ∨ (hasInt s = false ∧ s.head? = some 'w' ∧ pyFloat (s.drop 1) = some v)) := by
        unfold scanPart at hp
        cases hi : hasInt s
        · rw [hi] at hp
          by_cases hw : s.head? = some 'w'
          · rw [if_neg (by simp), if_pos hw, Option.map_eq_some_iff] at hp
            obtain ⟨v, hv, rfl⟩ := hp
            refine ⟨fun k => by simp, fun x => ?_⟩
            simp only [List.mem_cons, hv, hw, Option.some.injEq, true_and]
            tauto
          · rw [if_neg (by simp), if_neg hw] at hp
            cases hp
            simp [hw]
        · rw [hi, if_pos rfl, Option.map_eq_some_iff] at hp
          obtain ⟨k, hk, rfl⟩ := hp
          refine ⟨fun x => ?_, fun v => by simp⟩
          simp only [List.mem_cons, hk, Option.some.injEq, true_and]
          tauto
      constructor
      · intro k
        rw [h1, hs.1]
        simp only [List.mem_cons, exists_eq_or_imp]
        tauto
      · intro v
        rw [h2, hs.2]
        simp only [List.mem_cons, exists_eq_or_imp]
        tauto

theorem scan_parts (files : List Text) :
    scan files = (files.flatMap fun f => split (stem f)).foldlM scanPart ([], []) := by
  unfold scan
  generalize (([], []) : List Int × List Val) = acc
  induction files generalizing acc with
  | nil => rfl
  | cons f files ih =>
    rw [List.foldlM_cons, List.flatMap_cons, List.foldlM_append]
    congr 1
    funext a
    exact ih a

theorem scan_none (files : List Text) : scan files = none ↔ ∃ f ∈ files, ∃ s ∈ split (stem f), Bad s := by
  rw [scan_parts, scanParts_none]
  simp only [List.mem_flatMap]
  constructor
  · rintro ⟨s, ⟨f, hf, hs⟩, hb⟩; exact ⟨f, hf, s, hs, hb⟩
  · rintro ⟨f, hf, s, hs, hb⟩; exact ⟨s, ⟨f, hf, hs⟩, hb⟩

theorem scan_some {files : List Text} {r : List Int × List Val} (h : scan files = some r) :
    (∀ k, k ∈ r.1 ↔ ∃ f ∈ files, ∃ s ∈ split (stem f), hasInt s = true ∧ pyInt (s.drop 3) = some k) ∧
    (∀ v, v ∈ r.2 ↔ ∃ f ∈ files, ∃ s ∈ split (stem f), hasInt s = false ∧ s.head? = some 'w' ∧ pyFloat (s.drop 1) = some v) := by
  rw [scan_parts] at h
  obtain ⟨h1, h2⟩ := scanParts_some _ _ _ h
  constructor
  · intro k
    rw [h1]
    simp only [List.mem_flatMap, List.not_mem_nil, false_or]
    constructor
    · rintro ⟨s, ⟨f, hf, hs⟩, hb⟩; exact ⟨f, hf, s, hs, hb⟩
    · rintro ⟨f, hf, s, hs, hb⟩; exact ⟨s, ⟨f, hf, hs⟩, hb⟩
  · intro v
    rw [h2]
    simp only [List.mem_flatMap, List.not_mem_nil, false_or]
    constructor
    · rintro ⟨s, ⟨f, hf, hs⟩, hb⟩; exact ⟨f, hf, s, hs, hb⟩
    · rintro ⟨f, hf, s, hs, hb⟩; exact ⟨s, ⟨f, hf, hs⟩, hb⟩

/-- A part that says nothing. -/
def Plain (s : Text) : Prop := hasInt s = false ∧ s.head? ≠ some 'w'

instance (s : Text) : Decidable (Plain s) := inferInstanceAs (Decidable (_ ∧ _))

theorem digit_iff (c : Char) : isDigit c = true ↔ '0' ≤ c ∧ c ≤ '9' := by
  unfold isDigit
  rw [Bool.and_eq_true, decide_eq_true_eq, decide_eq_true_eq, Char.le_def, Char.le_def, UInt32.le_iff_toNat_le,
    UInt32.le_iff_toNat_le]
  exact Iff.rfl

theorem hasInt_iff (s : Text) : hasInt s = true ↔ Numbered s := by
  unfold hasInt Numbered
  rw [List.any_eq_true]
  simp only [Bool.and_eq_true, decide_eq_true_eq, List.all_eq_true]
  constructor
  · rintro ⟨t, ht, ⟨h1, h2⟩, h3⟩
    obtain ⟨a, ha⟩ := (List.mem_tails _ _).1 ht
    refine ⟨a, (t.drop 3).take 6, (t.drop 3).drop 6, ?_, h2, fun c hc => (digit_iff c).1 (h3 c hc)⟩
    rw [List.append_assoc, List.append_assoc, List.take_append_drop, ← h1, List.take_append_drop, ha]
  · rintro ⟨a, d, b, rfl, hd, hc⟩
    refine ⟨"int".toList ++ (d ++ b), (List.mem_tails _ _).2 ⟨a, by simp⟩, ?_⟩
    have h3 : ("int".toList ++ (d ++ b)).take 3 = "int".toList := by
      rw [show (3 : Nat) = "int".toList.length from rfl, List.take_left]
    have h4 : ("int".toList ++ (d ++ b)).drop 3 = d ++ b := by
      rw [show (3 : Nat) = "int".toList.length from rfl, List.drop_left]
    have h5 : (d ++ b).take 6 = d := by rw [← hd, List.take_left]
    rw [h3, h4, h5]
    exact ⟨⟨rfl, hd⟩, fun c hm => (digit_iff c).2 (hc c hm)⟩

theorem harmless_iff (s : Text) : Harmless s ↔ Plain s := by
  unfold Harmless Plain
  rw [← hasInt_iff]
  constructor
  · rintro ⟨h1, h2⟩
    refine ⟨by simpa using h1, fun h => ?_⟩
    cases s with
    | nil => cases h
    | cons c s =>
      rw [List.head?_cons, Option.some.injEq] at h
      exact h2 s (by rw [h])
  · rintro ⟨h1, h2⟩
    exact ⟨by simp [h1], fun r hr => h2 (by rw [hr]; rfl)⟩

theorem digit_ne {c : Char} (h : isDigit c = true) : c ≠ '_' ∧ c ≠ 'i' ∧ c ≠ '.' :=
  ⟨fun he => by rw [he] at h; exact absurd h (by decide), fun he => by rw [he] at h; exact absurd h (by decide),
    fun he => by rw [he] at h; exact absurd h (by decide)⟩

theorem text_no (r : Four) : '_' ∉ r.text ∧ 'i' ∉ r.text := by
  unfold Four.text
  constructor
  all_goals
    intro h
    simp only [List.mem_append, List.mem_cons] at h
    rcases h with (h | h | h) | h | h | h
    · have := digit_ne (padded_all _ _ _ h); simp_all
    · revert h; decide
    · have := digit_ne (padded_all _ _ _ h); simp_all
    · revert h; decide
    · split at h <;> (revert h; decide)
    · have := digit_ne (padded_all _ _ _ h); simp_all

/-- What is left of the end of a name without its extension. -/
def ending (what : What) (ext : Text) : Text :=
  what.suffix ++ (if ext = ".pickle.gz".toList then ".pickle".toList else [])

theorem ending_plain (what : What) {ext : Text} (h : ext = ".pickle".toList ∨ ext = ".gz".toList ∨ ext = ".pickle.gz".toList) :
    ∀ s ∈ split (ending what ext), Plain s := by
  rcases h with rfl | rfl | rfl <;> rcases what with k | ⟨k, b⟩ | ⟨k, b⟩ <;> cases k <;> (try cases b) <;> decide

theorem parts_mats (net : Text) (round : ℚ → Four) (tau : ℚ) (k : Nat) (what : What) {ext : Text}
    (h : ext = ".pickle".toList ∨ ext = ".gz".toList ∨ ext = ".pickle.gz".toList) :
    split (stem (Entry.name net round (.mats tau k what ext))) =
      split net ++ ["tau".toList, 'w' :: (round tau).text, "int".toList ++ padded 6 k] ++ split (ending what ext) := by
  obtain ⟨y, z, hy, hz, hext⟩ : ∃ y z : Text, '.' ∉ y ∧ ext = z ++ '.' :: y ∧
      ending what ext = what.suffix ++ z := by
    rcases h with rfl | rfl | rfl
    · exact ⟨"pickle".toList, [], by decide, rfl, rfl⟩
    · exact ⟨"gz".toList, [], by decide, rfl, rfl⟩
    · exact ⟨"gz".toList, ".pickle".toList, by decide, rfl, rfl⟩
  have hname : Entry.name net round (.mats tau k what ext) =
      (net ++ '_' :: ("tau".toList ++ '_' :: (('w' :: (round tau).text) ++ '_' :: (("int".toList ++ padded 6 k) ++ '_' :: ending what ext)))) ++ '.' :: y := by
    unfold Entry.name
    rw [hext, hz]
    simp
  rw [hname, stem_dot _ _ hy]
  · obtain ⟨h1, -⟩ := text_no (round tau)
    rw [split_append, split_append, split_append, split_append, split_one (by decide : '_' ∉ "tau".toList),
      split_one (s := 'w' :: (round tau).text) (by
        rw [List.mem_cons]; rintro (h | h)
        · revert h; decide
        · exact h1 h),
      split_one (s := "int".toList ++ padded 6 k) (by
        rw [List.mem_append]; rintro (h | h)
        · revert h; decide
        · exact (digit_ne (padded_all _ _ _ h)).1 rfl)]
    simp
  · simp

theorem parts_adjacency (net : Text) (round : ℚ → Four) (k : Nat) :
    split (stem (Entry.name net round (.adjacency k))) =
      split net ++ ["static".toList, "adjacency".toList, "int".toList ++ padded 6 k] := by
  have hname : Entry.name net round (.adjacency k) =
      (net ++ '_' :: ("static".toList ++ '_' :: ("adjacency".toList ++ '_' :: ("int".toList ++ padded 6 k)))) ++ '.' :: "pickle".toList := by
    unfold Entry.name
    simp
  rw [hname, stem_dot _ _ (by decide)]
  · rw [split_append, split_append, split_append, split_one (by decide : '_' ∉ "static".toList),
      split_one (by decide : '_' ∉ "adjacency".toList),
      split_one (s := "int".toList ++ padded 6 k) (by
        rw [List.mem_append]; rintro (h | h)
        · revert h; decide
        · exact (digit_ne (padded_all _ _ _ h)).1 rfl)]
    simp
  · simp

theorem int_part (k : Nat) : hasInt ("int".toList ++ padded 6 k) = true ∧ pyInt (("int".toList ++ padded 6 k).drop 3) = some (k : Int) := by
  refine ⟨hasInt_padded k, ?_⟩
  rw [show (3 : Nat) = "int".toList.length from rfl, List.drop_left]
  exact pyInt_padded (by norm_num) k

theorem scale_part (r : Four) : hasInt ('w' :: r.text) = false ∧ ('w' :: r.text).head? = some 'w' ∧
    pyFloat (('w' :: r.text).drop 1) = some (.num r.value) := by
  refine ⟨hasInt_of_no_i ?_, rfl, pyFloat_text r⟩
  rw [List.mem_cons]
  rintro (h | h)
  · revert h; decide
  · exact (text_no r).2 h

/-- The parts of a name, apart from those of the network, that say something. -/
theorem entry_parts (net : Text) (round : ℚ → Four) {e : Entry} (he : e.Known) (s : Text) :
    s ∈ split (stem (e.name net round)) → s ∈ split net ∨ Plain s ∨ s = "int".toList ++ padded 6 e.interval ∨
      ∃ tau, e.scale = some tau ∧ s = 'w' :: (round tau).text := by
  intro hs
  cases e with
  | mats tau k what ext =>
    rw [parts_mats net round tau k what he] at hs
    simp only [List.mem_append, List.mem_cons, List.not_mem_nil, or_false] at hs
    rcases hs with (h | h | h | h) | h
    · exact .inl h
    · rw [h]; exact .inr (.inl (by decide))
    · exact .inr (.inr (.inr ⟨tau, rfl, h⟩))
    · exact .inr (.inr (.inl h))
    · exact .inr (.inl (ending_plain what he s h))
  | adjacency k =>
    rw [parts_adjacency] at hs
    simp only [List.mem_append, List.mem_cons, List.not_mem_nil, or_false] at hs
    rcases hs with h | h | h | h
    · exact .inl h
    · rw [h]; exact .inr (.inl (by decide))
    · rw [h]; exact .inr (.inl (by decide))
    · exact .inr (.inr (.inl h))

theorem entry_has (net : Text) (round : ℚ → Four) {e : Entry} (he : e.Known) :
    (∀ s ∈ split net, s ∈ split (stem (e.name net round))) ∧
    "int".toList ++ padded 6 e.interval ∈ split (stem (e.name net round)) ∧
    ∀ tau, e.scale = some tau → 'w' :: (round tau).text ∈ split (stem (e.name net round)) := by
  cases e with
  | mats tau k what ext =>
    rw [parts_mats net round tau k what he]
    refine ⟨fun s hs => by simp [hs], by simp [Entry.interval], fun t ht => ?_⟩
    cases ht
    simp
  | adjacency k =>
    rw [parts_adjacency]
    exact ⟨fun s hs => by simp [hs], by simp [Entry.interval], fun t ht => by cases ht⟩

/-- **C136**: in a directory that `run_laplacians_transmats` has written, for a network whose name
has no part that looks like an interval or begins with `w`, the script finds exactly the intervals of
the files and, of every time scale, the number with four significant digits that is in the names. -/
theorem C136_found_partial (p : Text) (ps : List Text) (hus : ∀ q ∈ p :: ps, '_' ∉ q) (hparts : ∀ q ∈ p :: ps, Harmless q)
    (round : ℚ → Four) (es : List Entry) (hes : ∀ e ∈ es, e.Known) :
    ∃ ks vs, scan (es.map (Entry.name (List.intercalate ['_'] (p :: ps)) round)) = some (ks, vs) ∧
      (∀ k : Int, k ∈ ks ↔ ∃ e ∈ es, (e.interval : Int) = k) ∧
      ∀ v, v ∈ vs ↔ ∃ e ∈ es, ∃ tau, e.scale = some tau ∧ v = .num (round tau).value := by
  obtain ⟨net, hnet⟩ : ∃ net, net = List.intercalate ['_'] (p :: ps) := ⟨_, rfl⟩
  have hplain : ∀ s ∈ split net, Plain s := by
    rw [hnet, split_joined p ps hus]
    exact fun s hs => (harmless_iff s).1 (hparts s hs)
  rw [← hnet]
  have hparts : ∀ e ∈ es, ∀ s ∈ split (stem (e.name net round)), Plain s ∨ s = "int".toList ++ padded 6 e.interval ∨
      ∃ tau, e.scale = some tau ∧ s = 'w' :: (round tau).text := by
    intro e he s hs
    rcases entry_parts net round (hes e he) s hs with h | h
    · exact .inl (hplain s h)
    · exact h
  cases hsc : scan (es.map (Entry.name net round)) with
  | none =>
    exfalso
    obtain ⟨f, hf, s, hs, hb⟩ := (scan_none _).1 hsc
    obtain ⟨e, he, rfl⟩ := List.mem_map.1 hf
    rcases hparts e he s hs with h | rfl | ⟨tau, -, rfl⟩
    · rcases hb with hb | hb
      · rw [h.1] at hb; cases hb.1
      · exact h.2 hb.2.1
    · rcases hb with hb | hb
      · rw [(int_part e.interval).2] at hb; cases hb.2
      · rw [(int_part e.interval).1] at hb; cases hb.1
    · rcases hb with hb | hb
      · rw [(scale_part (round tau)).1] at hb; cases hb.1
      · rw [(scale_part (round tau)).2.2] at hb; cases hb.2.2
  | some r =>
    obtain ⟨h1, h2⟩ := scan_some hsc
    refine ⟨r.1, r.2, rfl, fun k => (h1 k).trans ?_, fun v => (h2 v).trans ?_⟩
    · constructor
      · rintro ⟨f, hf, s, hs, hi, hk⟩
        obtain ⟨e, he, rfl⟩ := List.mem_map.1 hf
        rcases hparts e he s hs with h | rfl | ⟨tau, -, rfl⟩
        · rw [h.1] at hi; cases hi
        · rw [(int_part e.interval).2] at hk
          exact ⟨e, he, by simpa using hk⟩
        · rw [(scale_part (round tau)).1] at hi; cases hi
      · rintro ⟨e, he, hk⟩
        refine ⟨_, List.mem_map.2 ⟨e, he, rfl⟩, _, (entry_has net round (hes e he)).2.1, (int_part _).1, ?_⟩
        rw [(int_part _).2, hk]
    · constructor
      · rintro ⟨f, hf, s, hs, hi, hw, hv⟩
        obtain ⟨e, he, rfl⟩ := List.mem_map.1 hf
        rcases hparts e he s hs with h | rfl | ⟨tau, ht, rfl⟩
        · exact absurd hw h.2
        · rw [(int_part e.interval).1] at hi; cases hi
        · rw [(scale_part (round tau)).2.2] at hv
          exact ⟨e, he, tau, ht, by simpa using hv.symm⟩
      · rintro ⟨e, he, tau, ht, rfl⟩
        exact ⟨_, List.mem_map.2 ⟨e, he, rfl⟩, _, (entry_has net round (hes e he)).2.2 tau ht, scale_part _⟩

/-- **C136**, what goes wrong: a part of the name of the network that begins with `w` and goes on
with something that is not a number stops the script, whatever the files of the network are. -/
theorem C136_name_violated (p : Text) (ps : List Text) (hus : ∀ q ∈ p :: ps, '_' ∉ q)
    {q : Text} (hq : 'w' :: q ∈ p :: ps) (hn : ¬ Numbered ('w' :: q)) (hf : pyFloat q = none)
    (round : ℚ → Four) (es : List Entry) (hne : es ≠ []) (hes : ∀ e ∈ es, e.Known) :
    scan (es.map (Entry.name (List.intercalate ['_'] (p :: ps)) round)) = none := by
  obtain ⟨e, es', rfl⟩ := List.exists_cons_of_ne_nil hne
  refine (scan_none _).2 ⟨_, List.mem_map.2 ⟨e, by simp, rfl⟩, 'w' :: q, ?_, .inr ⟨?_, rfl, hf⟩⟩
  · refine (entry_has _ round (hes e (by simp))).1 _ ?_
    rw [split_joined p ps hus]
    exact hq
  · rw [← hasInt_iff] at hn
    simpa using hn

/-- **C136**, what goes wrong: a part of the name of the network that is `w` and a number is taken
for a time scale, whatever the files of the network are. -/
theorem C136_extra_violated (p : Text) (ps : List Text) (hus : ∀ q ∈ p :: ps, '_' ∉ q)
    {q : Text} (hq : 'w' :: q ∈ p :: ps) (hn : ¬ Numbered ('w' :: q)) {v : Val} (hf : pyFloat q = some v)
    (round : ℚ → Four) (es : List Entry) (hne : es ≠ []) (hes : ∀ e ∈ es, e.Known) {ks : List Int} {vs : List Val}
    (hs : scan (es.map (Entry.name (List.intercalate ['_'] (p :: ps)) round)) = some (ks, vs)) : v ∈ vs := by
  obtain ⟨e, es', rfl⟩ := List.exists_cons_of_ne_nil hne
  refine ((scan_some hs).2 v).2 ⟨_, List.mem_map.2 ⟨e, by simp, rfl⟩, 'w' :: q, ?_, ?_, rfl, hf⟩
  · refine (entry_has _ round (hes e (by simp))).1 _ ?_
    rw [split_joined p ps hus]
    exact hq
  · rw [← hasInt_iff] at hn
    simpa using hn

/-- **C136**, what goes wrong: a time scale that needs more than four significant digits is not
among those that the script finds. -/
theorem C136_digits_violated (p : Text) (ps : List Text) (hus : ∀ q ∈ p :: ps, '_' ∉ q) (hparts : ∀ q ∈ p :: ps, Harmless q)
    (round : ℚ → Four) (es : List Entry) (hes : ∀ e ∈ es, e.Known) {tau : ℚ} (htau : ∀ f : Four, f.value ≠ tau)
    {ks : List Int} {vs : List Val}
    (hs : scan (es.map (Entry.name (List.intercalate ['_'] (p :: ps)) round)) = some (ks, vs)) : .num tau ∉ vs := by
  obtain ⟨ks', vs', h, -, h2⟩ := C136_found_partial p ps hus hparts round es hes
  rw [hs] at h
  cases h
  intro hv
  obtain ⟨e, -, t, -, hv⟩ := (h2 _).1 hv
  cases hv
  exact htau _ rfl

/-- **C136**: the number of nodes is found, in whatever order the files are listed, if all files
that have it agree and at least one has it. -/
theorem C136_nodes (files : List Held) {n : Nat} (hn : some (some n) ∈ files)
    (hall : ∀ m, some (some m) ∈ files → m = n) : numNodes files = some n := by
  induction files with
  | nil => cases hn
  | cons f files ih =>
    rcases f with - | (- | m)
    · exact ih (by simpa using hn) fun m hm => hall m (by simp [hm])
    · exact ih (by simpa using hn) fun m hm => hall m (by simp [hm])
    · rw [← hall m (by simp)]
      rfl

/-! ### Examples -/

/-- A time scale of one and a half, as in the names. -/
def exRound : ℚ → Four := fun _ => ⟨1500, 0, by norm_num⟩

/-- Two intervals, with an adjacency matrix. -/
def exFiles : List Entry :=
  [.mats (3 / 2) 0 (.inter .expm) ".gz".toList, .mats (3 / 2) 1 (.slice .lin true) ".pickle".toList, .adjacency 1]

example : (∀ q ∈ ["contacts".toList, "school".toList], '_' ∉ q) ∧ (∀ q ∈ ["contacts".toList, "school".toList], Harmless q) ∧
    (∀ e ∈ exFiles, e.Known) ∧ (exRound (3 / 2)).value = 3 / 2 := by
  refine ⟨by decide, fun q hq => (harmless_iff q).2 ?_, ?_, by unfold exRound Four.value; norm_num⟩
  · revert q; decide
  · intro e he
    simp only [exFiles, List.mem_cons, List.not_mem_nil, or_false] at he
    rcases he with rfl | rfl | rfl
    · exact .inr (.inl rfl)
    · exact .inl rfl
    · trivial

example : 'w' :: "orkplace".toList ∈ ["contacts".toList, "workplace".toList] ∧ ¬ Numbered ('w' :: "orkplace".toList) ∧
    pyFloat "orkplace".toList = none := by
  refine ⟨by decide, ?_, by decide⟩
  rw [← hasInt_iff]
  decide

example : ¬ Numbered ('w' :: "2".toList) ∧ pyFloat "2".toList = some (.num 2) := by
  refine ⟨?_, by decide +kernel⟩
  rw [← hasInt_iff]
  decide

example (f : Four) : f.value ≠ 12345 / 10000 := by
  intro h
  unfold Four.value at h
  have h10 : (10 : ℚ) ≠ 0 := by norm_num
  by_cases hj : 0 ≤ f.e
  · obtain ⟨j, hj⟩ := Int.eq_ofNat_of_zero_le hj
    rw [hj, zpow_sub₀ h10] at h
    have h2 : ((2 * (f.m * 10 ^ j) : Nat) : ℚ) = ((2469 : Nat) : ℚ) := by
      push_cast
      have : (10 : ℚ) ^ ((j : ℕ) : ℤ) = 10 ^ j := zpow_natCast _ _
      rw [this] at h
      norm_num at h
      linarith
    have := Nat.cast_injective h2
    omega
  · obtain ⟨j, hj⟩ : ∃ j : Nat, f.e = -1 - (j : ℤ) := ⟨(-1 - f.e).toNat, by omega⟩
    have h1 : (f.m : ℚ) = 12345 * 10 ^ j := by
      have h3 : (10 : ℚ) ^ (f.e - 3) * 10 ^ (4 + j) = 1 := by
        rw [← zpow_natCast, ← zpow_add₀ h10, hj]
        have : (-1 - (j : ℤ) - 3 + ((4 + j : ℕ) : ℤ)) = 0 := by push_cast; ring
        rw [this, zpow_zero]
      calc (f.m : ℚ) = f.m * ((10 : ℚ) ^ (f.e - 3) * 10 ^ (4 + j)) := by rw [h3, mul_one]
        _ = (f.m * (10 : ℚ) ^ (f.e - 3)) * 10 ^ (4 + j) := by ring
        _ = 12345 * 10 ^ j := by rw [h, pow_add]; norm_num; ring
    have h2 : f.m = 12345 * 10 ^ j := by exact_mod_cast h1
    have := f.four
    have : 1 ≤ 10 ^ j := Nat.one_le_pow _ _ (by norm_num)
    omega

end Verif.CovMain
