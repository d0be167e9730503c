import Verif.Scripts.SliceModel
import Verif.TempNet.Props
import Verif.Trans.Lemmas
import Mathlib.Algebra.Order.Archimedean.Basic
import Mathlib.Tactic.FieldSimp
import Mathlib.Tactic.Push

/-!
# Splitting of the work: property C49
-/

set_option linter.dupNamespace false
set_option linter.unusedSectionVars false
set_option linter.unusedSimpArgs false

namespace Verif.Scripts

open Verif.Trans Verif.TempNet

/-! ## The batches -/

section Batches

variable {α : Type}

theorem batch_prefix (full : List α) {total : Nat} (ht : 0 < total) : ∀ b, b < total →
    ((List.range b).map fun i => (batch full total i).getD []).flatten = full.take (b * (full.length / total)) := by
  intro b
  induction b with
  | zero => intro _; simp
  | succ b ih =>
    intro hb
    rw [List.range_succ, List.map_append, List.flatten_append, ih (by omega)]
    have h1 : batch full total b =
        some ((full.take ((b + 1) * (full.length / total))).drop (b * (full.length / total))) := by
      unfold batch
      rw [if_neg (by omega), if_neg (by omega)]
    simp only [List.map_cons, List.map_nil, List.flatten_cons, List.flatten_nil, List.append_nil, h1,
      Option.getD_some]
    have h2 : b * (full.length / total) ≤ (b + 1) * (full.length / total) := Nat.mul_le_mul_right _ (by omega)
    have h3 : full.take (b * (full.length / total)) =
        (full.take ((b + 1) * (full.length / total))).take (b * (full.length / total)) := by
      rw [List.take_take, min_eq_left h2]
    rw [h3, List.take_append_drop]

/-- **C49**.  The batches of the machines `0, …, total - 1`, one after the other, are the full
list: every element is in exactly one batch, also when there are more machines than elements. -/
theorem C49_batches (full : List α) {total : Nat} (ht : 0 < total) :
    ∃ batches : List (List α), (List.range total).map (batch full total) = batches.map some ∧
      batches.flatten = full := by
  refine ⟨(List.range total).map fun b => (batch full total b).getD [], ?_, ?_⟩
  · rw [List.map_map]
    apply List.map_congr_left
    intro b _
    simp only [Function.comp, batch, if_neg (by omega : ¬ total = 0)]
    split <;> rfl
  · obtain ⟨t, rfl⟩ : ∃ t, total = t + 1 := ⟨total - 1, by omega⟩
    rw [List.range_succ, List.map_append, List.flatten_append, batch_prefix full ht t (by omega)]
    have h1 : batch full (t + 1) t = some (full.drop (t * (full.length / (t + 1)))) := by
      unfold batch
      rw [if_neg (by omega), if_pos rfl]
    simp only [List.map_cons, List.map_nil, List.flatten_cons, List.flatten_nil, List.append_nil, h1,
      Option.getD_some, List.take_append_drop]

example : (List.range 3).map (batch [10, 11, 12, 13, 14, 15, 16] 3) =
    [some [10, 11], some [12, 13], some [14, 15, 16]] := by decide +kernel

/-- More machines than slices: the last one does all the work. -/
example : (List.range 3).map (batch [10, 11] 3) = [some [], some [], some [10, 11]] := by decide +kernel

end Batches

variable {K : Type} [Field K] [LinearOrder K] [IsStrictOrderedRing K]

/-- **C49**.  All machines together treat the slices that are not to be skipped, each one once. -/
theorem C49_work (full : List (Nat × K × K)) {total : Nat} (ht : 0 < total) (skip : List Nat) :
    ∃ works : List (List (Nat × K × K)), (List.range total).map (fun b => workList full total b skip) = works.map some ∧
      works.flatten = full.filter fun e => decide (e.1 ∉ skip) := by
  obtain ⟨bs, h1, h2⟩ := C49_batches full ht
  refine ⟨bs.map fun l => l.filter fun e => decide (e.1 ∉ skip), ?_, ?_⟩
  · have : (fun b => workList full total b skip) =
        (fun o => Option.map (fun l => l.filter fun e => decide (e.1 ∉ skip)) o) ∘ batch full total := rfl
    rw [this, ← List.map_map, h1, List.map_map, List.map_map]
    rfl
  · rw [← h2, List.filter_flatten]

/-! ## The slices -/

/-- The bounds of consecutive slices of length `len` that start at `t0`, where the last slice is
the first one to reach `tend`. -/
def Tiling (t0 tend len : K) (bounds : List K) : Prop :=
  ∃ m : Nat, bounds = (List.range (m + 1)).map (fun i : Nat => t0 + i * len) ∧
    tend ≤ t0 + m * len ∧ ∀ i < m, t0 + (i : K) * len < tend

theorem sliceLoop_run (t0 tend len : K) (m : Nat) (h1 : tend ≤ t0 + m * len) (h2 : ∀ i < m, t0 + (i : K) * len < tend) :
    ∀ (d i : Nat), i + d = m → ∀ fuel, d ≤ fuel →
      sliceLoop tend len fuel (t0 + i * len) ((List.range (i + 1)).map (fun i : Nat => t0 + i * len)) =
        some ((List.range (m + 1)).map (fun i : Nat => t0 + i * len)) := by
  intro d
  induction d with
  | zero =>
    intro i hi fuel _
    have : i = m := by omega
    subst this
    cases fuel with
    | zero => rw [sliceLoop, if_neg (not_lt.2 h1)]
    | succ f => rw [sliceLoop, if_neg (not_lt.2 h1)]
  | succ d ih =>
    intro i hi fuel hf
    obtain ⟨f, rfl⟩ : ∃ f, fuel = f + 1 := ⟨fuel - 1, by omega⟩
    rw [sliceLoop, if_pos (h2 i (by omega))]
    have h3 := ih (i + 1) (by omega) f (by omega)
    have h4 : t0 + (i : K) * len + len = t0 + ((i + 1 : Nat) : K) * len := by push_cast; ring
    rw [h4]
    rw [List.range_succ (n := i + 1), List.map_append] at h3
    exact h3

theorem tiling_exists [Archimedean K] (t0 tend : K) {len : K} (hl : 0 < len) :
    ∃ m : Nat, tend ≤ t0 + m * len ∧ ∀ i < m, t0 + (i : K) * len < tend := by
  obtain ⟨m, hm⟩ := Archimedean.arch (tend - t0) hl
  rw [nsmul_eq_mul] at hm
  have hex : ∃ m : Nat, tend ≤ t0 + m * len := ⟨m, by linarith⟩
  classical
  refine ⟨Nat.find hex, Nat.find_spec hex, fun i hi => ?_⟩
  exact not_le.1 (Nat.find_min hex hi)

/-- **C49**.  For slices of a positive length the loop ends, and the slices tile the interval from
`t0` to `tend`. -/
theorem C49_slices [Archimedean K] (t0 tend : K) {len : K} (hl : 0 < len) (num : Nat) :
    ∃ (passes : Nat) (bounds : List K), (∀ fuel, passes ≤ fuel → timeSlices t0 tend (some len) num fuel = some bounds) ∧
      Tiling t0 tend len bounds := by
  obtain ⟨m, h1, h2⟩ := tiling_exists t0 tend hl
  refine ⟨m, (List.range (m + 1)).map (fun i : Nat => t0 + i * len), fun fuel hf => ?_, m, rfl, h1, h2⟩
  have := sliceLoop_run t0 tend len m h1 h2 m 0 (by omega) fuel hf
  simpa [timeSlices] using this

/-- **C49**.  When only the number of slices is given there are exactly that many, all of the same
length, and the last one ends at `tend`. -/
theorem C49_number_of_slices {t0 tend : K} (h : t0 < tend) {num : Nat} (hn : 0 < num) :
    ∃ bounds : List K, (∀ fuel, num ≤ fuel → timeSlices t0 tend none num fuel = some bounds) ∧
      Tiling t0 tend ((tend - t0) / num) bounds ∧ (fullBatch bounds).length = num ∧ bounds.getLast? = some tend := by
  have hnum : (0 : K) < num := by exact_mod_cast hn
  have hend : t0 + (num : K) * ((tend - t0) / num) = tend := by field_simp; ring
  have h2 : ∀ i < num, t0 + (i : K) * ((tend - t0) / num) < tend := by
    intro i hi
    have hi' : (i : K) < num := by exact_mod_cast hi
    have hp : 0 < (tend - t0) / num := div_pos (sub_pos.2 h) hnum
    calc t0 + (i : K) * ((tend - t0) / num) < t0 + (num : K) * ((tend - t0) / num) := by
          have := mul_lt_mul_of_pos_right hi' hp
          linarith
      _ = tend := hend
  refine ⟨(List.range (num + 1)).map (fun i : Nat => t0 + i * ((tend - t0) / num)), fun fuel hf => ?_,
    ⟨num, rfl, hend.ge, h2⟩, ?_, ?_⟩
  · have := sliceLoop_run t0 tend ((tend - t0) / num) num hend.ge h2 num 0 (by omega) fuel hf
    simp only [timeSlices, if_neg (by omega : ¬ num = 0)]
    simpa using this
  · simp [fullBatch]
  · rw [List.range_succ, List.map_append]
    simp only [List.map_cons, List.map_nil, List.getLast?_append, List.getLast?_singleton]
    rw [hend]; rfl

/-- **C49** fails for slices whose length is not positive: the loop never ends. -/
theorem C49_length_violated {t0 tend len : K} (h : t0 < tend) (hl : len ≤ 0) (num fuel : Nat) :
    timeSlices t0 tend (some len) num fuel = none := by
  have : ∀ (fuel : Nat) (t : K) (acc : List K), t < tend → sliceLoop tend len fuel t acc = none := by
    intro fuel
    induction fuel with
    | zero => intro t acc ht; rw [sliceLoop, if_pos ht]
    | succ f ih =>
      intro t acc ht
      rw [sliceLoop, if_pos ht]
      exact ih _ _ (by linarith)
  exact this fuel t0 [t0] h

example : timeSlices (0 : ℚ) 7 (some 3) 1 10 = some [0, 3, 6, 9] ∧ timeSlices (0 : ℚ) 7 none 2 10 = some [0, 7/2, 7] ∧
    fullBatch [(0 : ℚ), 3, 6, 9] = [(0, 0, 3), (1, 3, 6), (2, 6, 9)] := by decide +kernel

/-! ## The inter-event intervals of the slices -/

/-- The transition during the `k`-th interval between two event times, and the length of the
interval. -/
noncomputable def stepAt (env : Env K) (lamda : K) (k : Nat) : Mat K × K :=
  let t := (timesOf env.events).getD k 0
  let t' := (timesOf env.events).getD (k + 1) 0
  (interMat env.n env.E lamda false (walkLaplacian env.n (Active env.events t)) t t', t' - t)

theorem sliceSteps_eq (env : Env K) (h : Proper env.n env.events) (hne : env.events ≠ []) (lamda : K) (a b : Option K) :
    ∃ k m, Resolves (timesOf env.events) k 0 a ∧ Resolves (timesOf env.events) m ((timesOf env.events).length - 1) b ∧
      m < (timesOf env.events).length ∧
      sliceSteps env lamda a b = .ok ((List.range' k (m - k)).map (stepAt env lamda)) := by
  obtain ⟨L, hL, hk, hm, hlen, hval⟩ := C33_active_contacts_partial h hne env.startFirst a b
  have hsorted : (timesOf env.events).Pairwise (· < ·) := uniqueSorted_lt _
  have hm' : L.kStop < (timesOf env.events).length := by
    cases b with
    | some t => obtain ⟨hh, -⟩ := hm; exact hh
    | none =>
      have hne' : timesOf env.events ≠ [] := by
        obtain ⟨e, he⟩ := List.exists_mem_of_ne_nil _ hne
        exact List.ne_nil_of_mem (start_mem_times he)
      have := List.length_pos_of_ne_nil hne'
      have hm2 : L.kStop = (timesOf env.events).length - 1 := hm
      omega
  refine ⟨L.kStart, L.kStop, hk, hm, hm', ?_⟩
  unfold sliceSteps
  rw [hL]
  dsimp only
  congr 1
  set times := timesOf env.events with htimes
  by_cases hle : L.kStop ≤ L.kStart
  · have h1 : (times.take (L.kStop + 1)).drop L.kStart = [] ∨ ∃ x, (times.take (L.kStop + 1)).drop L.kStart = [x] := by
      have : ((times.take (L.kStop + 1)).drop L.kStart).length ≤ 1 := by simp; omega
      match hq : (times.take (L.kStop + 1)).drop L.kStart with
      | [] => exact .inl rfl
      | [x] => exact .inr ⟨x, rfl⟩
      | x :: y :: r => rw [hq] at this; simp at this
    have h2 : gaps ((times.take (L.kStop + 1)).drop L.kStart) = [] := by
      rcases h1 with h1 | ⟨x, h1⟩ <;> rw [h1] <;> rfl
    rw [h2]
    have : L.kStop - L.kStart = 0 := by omega
    rw [this]
    simp
  · have hlt : L.kStart < L.kStop := by omega
    have hr : interMats env.n env.E times L lamda false =
        ((times.take L.kStop).drop L.kStart).zipIdx.map fun (tk, k) =>
          interMat env.n env.E lamda false (L.laplacians.getD k eye) tk (times.getD (L.kStart + k + 1) 0) := by
      unfold interMats
      dsimp only
      rw [if_neg]
      simp; omega
    rw [hr]
    apply List.ext_getElem
    · have hgl : ∀ l : List K, (gaps l).length = l.length - 1 := by
        intro l
        induction l with
        | nil => rfl
        | cons x l ih =>
          cases l with
          | nil => rfl
          | cons y r => simp only [gaps, List.length_cons, ih]; simp
      simp [hgl]; omega
    · intro i hi1 hi2
      have hi : i < L.kStop - L.kStart := by simpa using hi2
      have hgg : ∀ (l : List K) (i : Nat) (hi : i < (gaps l).length), ∃ (h1 : i + 1 < l.length),
          (gaps l)[i] = l[i + 1] - l[i] := by
        intro l
        induction l with
        | nil => intro i hi; simp [gaps] at hi
        | cons x l ih =>
          cases l with
          | nil => intro i hi; simp [gaps] at hi
          | cons y r =>
            intro i hi
            cases i with
            | zero => exact ⟨by simp, rfl⟩
            | succ i =>
              obtain ⟨h1, h2⟩ := ih i (by simpa [gaps] using hi)
              exact ⟨by simpa using h1, by simpa [gaps] using h2⟩
      simp only [List.getElem_zip, List.getElem_map, List.getElem_zipIdx, List.getElem_range', Nat.one_mul,
        Nat.zero_add]
      obtain ⟨hg1, hg2⟩ := hgg ((times.take (L.kStop + 1)).drop L.kStart) i (by
        simp only [List.length_zip] at hi1
        omega)
      rw [hg2]
      have ha : L.kStart + i < times.length := by omega
      have hb : L.kStart + i + 1 < times.length := by omega
      have hgt : times[L.kStart + i] < times[L.kStart + i + 1] :=
        List.pairwise_iff_getElem.1 hsorted _ _ ha hb (by omega)
      have hlap : L.laplacians.getD i eye = walkLaplacian env.n (Active env.events times[L.kStart + i]) := by
        have hi' : i < L.laplacians.length := by omega
        rw [List.getD_eq_getElem?_getD, List.getElem?_eq_getElem hi', Option.getD_some]
        funext x y
        exact hval i hi' hb _ le_rfl hgt x y
      have e1 : times.getD (L.kStart + i) 0 = times[L.kStart + i] := by
        rw [List.getD_eq_getElem?_getD, List.getElem?_eq_getElem ha, Option.getD_some]
      have e2 : times.getD (L.kStart + i + 1) 0 = times[L.kStart + i + 1] := by
        rw [List.getD_eq_getElem?_getD, List.getElem?_eq_getElem hb, Option.getD_some]
      simp only [stepAt, ← htimes, e1, e2, hlap]
      simp only [List.getElem_drop, List.getElem_take, Nat.add_assoc]

theorem resolves_unique {times : List K} (h : times.Pairwise (· < ·)) {k k' d d' : Nat} {t t' : K}
    (hk : Resolves times k d (some t)) (hk' : Resolves times k' d' (some t')) (htt : t ≤ t') : k ≤ k' := by
  obtain ⟨h1, h2, -⟩ := hk
  obtain ⟨h3, -, h4⟩ := hk'
  rcases h2 with h2 | h2
  · exact h4 k h1 (h2.trans htt)
  · omega

theorem slices_concat (env : Env K) (h : Proper env.n env.events) (hne : env.events ≠ []) (lamda : K) :
    ∀ (r : List K) (t0 : K), (t0 :: r).Pairwise (· ≤ ·) →
      ∃ steps : List (List (Mat K × K)),
        ((t0 :: r).dropLast.zip (t0 :: r).tail).map (fun s => sliceSteps env lamda (some s.1) (some s.2)) =
          steps.map Except.ok ∧
        sliceSteps env lamda (some t0) (some ((t0 :: r).getLastD t0)) = .ok steps.flatten := by
  have hsorted : (timesOf env.events).Pairwise (· < ·) := uniqueSorted_lt _
  intro r
  induction r with
  | nil =>
    intro t0 _
    refine ⟨[], by simp, ?_⟩
    obtain ⟨k, m, hk, hm, -, he⟩ := sliceSteps_eq env h hne lamda (some t0) (some t0)
    have h1 := resolves_unique hsorted hk hm le_rfl
    have h2 := resolves_unique hsorted hm hk le_rfl
    have : m - k = 0 := by omega
    simp only [List.getLastD_cons, List.getLastD_nil]
    rw [he, this]
    rfl
  | cons t1 r ih =>
    intro t0 hp
    obtain ⟨steps, h1, h2⟩ := ih t1 (List.Pairwise.of_cons hp)
    obtain ⟨k, m, hk, hm, -, he⟩ := sliceSteps_eq env h hne lamda (some t0) (some t1)
    obtain ⟨k2, m2, hk2, hm2, -, he2⟩ := sliceSteps_eq env h hne lamda (some t1) (some ((t1 :: r).getLastD t1))
    obtain ⟨k3, m3, hk3, hm3, -, he3⟩ := sliceSteps_eq env h hne lamda (some t0) (some ((t1 :: r).getLastD t1))
    have hl : (t0 :: t1 :: r).getLastD t0 = (t1 :: r).getLastD t1 := by
      simp only [List.getLastD_cons]
    have ht01 : t0 ≤ t1 := (List.pairwise_cons.1 hp).1 t1 (by simp)
    have ht12 : t1 ≤ (t1 :: r).getLastD t1 := by
      have : (t1 :: r).getLastD t1 ∈ t1 :: r := by
        rw [List.getLastD_eq_getLast?, List.getLast?_eq_some_getLast (by simp), Option.getD_some]
        exact List.getLast_mem _
      rcases List.mem_cons.1 this with hh | hh
      · exact hh.ge
      · exact (List.pairwise_cons.1 (List.Pairwise.of_cons hp)).1 _ hh
    have e1 : k3 = k := le_antisymm (resolves_unique hsorted hk3 hk le_rfl) (resolves_unique hsorted hk hk3 le_rfl)
    have e2 : k2 = m := le_antisymm (resolves_unique hsorted hk2 hm le_rfl) (resolves_unique hsorted hm hk2 le_rfl)
    have e3 : m3 = m2 := le_antisymm (resolves_unique hsorted hm3 hm2 le_rfl) (resolves_unique hsorted hm2 hm3 le_rfl)
    have e4 : k ≤ m := resolves_unique hsorted hk hm ht01
    have e5 : m ≤ m2 := resolves_unique hsorted hm hm2 ht12
    refine ⟨((List.range' k (m - k)).map (stepAt env lamda)) :: steps, ?_, ?_⟩
    · rw [List.dropLast_cons_of_ne_nil (by simp)]
      simp only [List.tail_cons]
      rw [List.zip_cons_cons, List.map_cons, List.map_cons, he]
      congr 1
    · rw [hl, he3, e1, e3, List.flatten_cons]
      have h4 : steps.flatten = (List.range' k2 (m2 - k2)).map (stepAt env lamda) := by
        have := h2.symm.trans he2
        injection this
      rw [h4, e2, ← List.map_append]
      have h5 : m2 - k = (m - k) + (m2 - m) := by omega
      have h6 := List.range'_append (s := k) (m := m - k) (n := m2 - m) (step := 1)
      have h7 : k + 1 * (m - k) = m := by omega
      rw [h7] at h6
      rw [h5, ← h6]

/-- **C49**.  The inter-event matrices of consecutive slices, with the lengths of their intervals,
are those of the whole period, each one exactly once and in order: where the slices are cut does
not matter. -/
theorem C49_matrices (env : Env K) (h : Proper env.n env.events) (hne : env.events ≠ []) (lamda : K) (t0 : K)
    (r : List K) (hs : (t0 :: r).Pairwise (· ≤ ·)) :
    ∃ steps : List (List (Mat K × K)),
      (fullBatch (t0 :: r)).map (fun s => sliceSteps env lamda (some s.2.1) (some s.2.2)) = steps.map Except.ok ∧
      sliceSteps env lamda (some t0) (some ((t0 :: r).getLastD t0)) = .ok steps.flatten := by
  obtain ⟨steps, h1, h2⟩ := slices_concat env h hne lamda r t0 hs
  refine ⟨steps, ?_, h2⟩
  rw [← h1]
  unfold fullBatch
  rw [List.map_map]
  conv_rhs => rw [← List.zipIdx_map_fst 0 ((t0 :: r).dropLast.zip (t0 :: r).tail)]
  rw [List.map_map]
  rfl

/-- **C49**.  With the default bounds, from the first to the last event time, the slices together
hold the matrices of the whole network. -/
theorem C49_whole_network (env : Env K) (h : Proper env.n env.events) (hne : env.events ≠ []) (lamda len : K)
    (hlen : 0 < len) {t0 tend : K} (ht0 : (timesOf env.events).head? = some t0)
    (htend : (timesOf env.events).getLast? = some tend) {bounds : List K} (hb : Tiling t0 tend len bounds) :
    ∃ steps : List (List (Mat K × K)),
      (fullBatch bounds).map (fun s => sliceSteps env lamda (some s.2.1) (some s.2.2)) = steps.map Except.ok ∧
      sliceSteps env lamda none none = .ok steps.flatten := by
  obtain ⟨m, rfl, h1, h2⟩ := hb
  have hsorted : (timesOf env.events).Pairwise (· < ·) := uniqueSorted_lt _
  rw [List.range_succ_eq_map, List.map_cons]
  have e0 : t0 + ((0 : Nat) : K) * len = t0 := by simp
  rw [e0]
  have hs : (t0 :: (List.map Nat.succ (List.range m)).map (fun i : Nat => t0 + (i : K) * len)).Pairwise (· ≤ ·) := by
    have : (t0 :: (List.map Nat.succ (List.range m)).map (fun i : Nat => t0 + (i : K) * len)) =
        (List.range (m + 1)).map (fun i : Nat => t0 + (i : K) * len) := by
      rw [List.range_succ_eq_map, List.map_cons, e0]
    rw [this, List.pairwise_map]
    refine List.Pairwise.imp ?_ (List.pairwise_lt_range)
    intro a b hab
    have : (a : K) ≤ b := by exact_mod_cast hab.le
    have := mul_le_mul_of_nonneg_right this hlen.le
    linarith
  obtain ⟨steps, h3, h4⟩ := C49_matrices env h hne lamda t0 _ hs
  refine ⟨steps, h3, ?_⟩
  rw [← h4]
  have hlast : (t0 :: (List.map Nat.succ (List.range m)).map (fun i : Nat => t0 + (i : K) * len)).getLastD t0 =
      t0 + (m : K) * len := by
    have : (t0 :: (List.map Nat.succ (List.range m)).map (fun i : Nat => t0 + (i : K) * len)) =
        (List.range (m + 1)).map (fun i : Nat => t0 + (i : K) * len) := by
      rw [List.range_succ_eq_map, List.map_cons, e0]
    rw [this, List.range_succ, List.map_append, List.getLastD_eq_getLast?]
    simp
  rw [hlast]
  obtain ⟨k, m1, hk, hm, hm1, he⟩ := sliceSteps_eq env h hne lamda none none
  obtain ⟨k2, m2, hk2, hm2, hm2', he2⟩ := sliceSteps_eq env h hne lamda (some t0) (some (t0 + (m : K) * len))
  rw [he, he2]
  have hk' : k = 0 := hk
  have hm' : m1 = (timesOf env.events).length - 1 := hm
  have hpos : 0 < (timesOf env.events).length := by omega
  have hk0 : k2 = 0 := by
    obtain ⟨a, b, -⟩ := hk2
    rcases b with b | b
    · by_contra hc
      have h5 : (timesOf env.events)[0] = t0 := by
        rw [List.head?_eq_getElem?, List.getElem?_eq_getElem hpos] at ht0
        injection ht0
      have := List.pairwise_iff_getElem.1 hsorted 0 k2 hpos a (by omega)
      rw [h5] at this
      exact absurd b (not_le.2 this)
    · exact b
  have hme : m2 = (timesOf env.events).length - 1 := by
    obtain ⟨a, -, b⟩ := hm2
    have h5 : (timesOf env.events)[(timesOf env.events).length - 1] = tend := by
      rw [List.getLast?_eq_getElem?, List.getElem?_eq_getElem (by omega)] at htend
      injection htend
    have := b ((timesOf env.events).length - 1) (by omega) (by rw [h5]; exact h1)
    omega
  rw [hk', hm', hk0, hme]

/-- Slices cut between event times, and one slice without an event time. -/
example : ∃ (r : List ℚ), (0 :: r).Pairwise (· ≤ ·) ∧ Tiling 0 4 (3/4) (0 :: r) ∧ Proper 3 exEvents ∧ exEvents ≠ [] ∧
    (timesOf exEvents).head? = some 0 ∧ (timesOf exEvents).getLast? = some 4 := by
  refine ⟨[3/4, 3/2, 9/4, 3, 15/4, 9/2], by decide +kernel, ⟨6, ?_, ?_, ?_⟩, exEvents_proper, by decide, ?_, ?_⟩
  · decide +kernel
  · norm_num
  · decide +kernel
  · decide +kernel
  · decide +kernel

end Verif.Scripts
