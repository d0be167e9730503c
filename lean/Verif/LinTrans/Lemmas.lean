import Verif.LinTrans.Spec
import Verif.Trans.Lin
import Verif.Trans.Evolution

/-!
# Lemmas on the transition matrices of lasting and instantaneous contacts
-/

set_option linter.dupNamespace false
set_option linter.unusedSectionVars false
set_option linter.unusedSimpArgs false

namespace Verif.LinTrans

open Verif.TempNet Verif.Trans Finset

variable {K : Type} [Field K] [LinearOrder K] [IsStrictOrderedRing K]

/-- One linear inter-event matrix, for a Laplacian that is the random-walk Laplacian of `G`. -/
theorem linMat_right {env : LinEnv K} {times : List K} {L : Laps K} {P : List (Mat K)} {lamda tS : K}
    {fixTau sparse : Bool} {t : K} {i : Nat} (hi2 : i < L.laplacians.length) {G : Nat → Nat → Prop}
    (hG : Undirected env.n G) (hc : LabelSpec env.n env.comps)
    (hst : ∀ L : Mat K, ∀ i < env.n, ∀ j < env.n, L i j ≠ 0 → env.stored L i j = true)
    (hlap : ∀ a b, L.laplacians[i] a b = walkLaplacian env.n G a b)
    (hP : P[i]? = some (stationary env.n (env.comps (discrete L.laplacians[i])) (discrete L.laplacians[i])))
    (hS : 1 < tS) (ht0' : 0 ≤ (if fixTau then 1 else times.getD (L.kStart + i + 1) 0 - t) * lamda) :
    ∃ M, linMat env times L P lamda tS fixTau sparse (t, i) = .ok M ∧ Stoch env.n M ∧
      LinearApprox env.n G ((if fixTau then 1 else times.getD (L.kStart + i + 1) 0 - t) * lamda) tS M := by
  have hd0 : discrete L.laplacians[i] = (walk env.n G : Mat K) := by
    funext a b
    unfold discrete walk
    rw [hlap a b]
  set T : Mat K := discrete L.laplacians[i] with hTdef
  set Pi : Mat K := stationary env.n (env.comps T) T with hPi
  set tau : K := (if fixTau then 1 else times.getD (L.kStart + i + 1) 0 - t) with htau
  have ht0 : 0 ≤ tau * lamda := ht0'
  have hcomp := components_of_walk (K := K) hG hc
  rw [← hd0] at hcomp
  have hTs : Stoch env.n T := by rw [hd0]; exact walk_stoch
  have hPs : Stoch env.n Pi := by
    rw [hPi, hd0]; exact C41_stochastic _
  obtain ⟨A, hA, hAs⟩ := C40_stochastic hTs hPs (tau * lamda) tS ht0 hS
  have hP0 : P[i]? = some Pi := hP
  have hM : ∃ M, linMat env times L P lamda tS fixTau sparse
      (t, i) = .ok M ∧ EqOn env.n A M := by
    unfold linMat
    simp only [hP0, getD_elem _ _ hi2, ← hTdef, ← htau]
    cases sparse
    · refine ⟨A, ?_, EqOn.refl _ _⟩
      simp only [Bool.false_eq_true, if_false, hA]
    · have hid : IdentityOff env.n (keptIndices env.n (env.stored L.laplacians[i])) T := by
        intro a ha b hb hab
        have hz : L.laplacians[i] a b = 0 := by
          by_contra hcon
          have := hst _ a ha b hb hcon
          rcases hab with hab | hab
          · exact hab (kept_mem'.2 ⟨ha, b, hb, .inl this⟩)
          · exact hab (kept_mem'.2 ⟨hb, a, ha, .inr this⟩)
        rw [hTdef]
        unfold discrete
        rw [hz, sub_zero]
      have hidP : IdentityOff env.n (keptIndices env.n (env.stored L.laplacians[i])) Pi := by
        have hiso : ∀ a < env.n, a ∉ keptIndices env.n (env.stored L.laplacians[i]) →
            ∀ b < env.n, env.comps T a = env.comps T b → a = b := by
          intro a ha hna b hb hab
          rw [hcomp a ha b hb] at hab
          rcases Relation.ReflTransGen.cases_head hab with rfl | ⟨c, hac, -⟩
          · rfl
          · exfalso
            have hdeg := degree_pos hG hac
            have hcn := (hG.inRange _ _ hac).2
            have hTac : T a c ≠ 0 := by
              classical
              rw [hd0, walk_connected hdeg, if_pos hac]
              exact one_div_ne_zero (by exact_mod_cast hdeg)
            have := hid a ha c hcn (.inl hna)
            rw [this] at hTac
            apply hTac
            unfold eye
            rw [if_neg]
            rintro rfl
            exact hG.noLoop _ hac
        intro a ha b hb hab
        have hrow := hPs a ha
        by_cases he : env.comps T a = env.comps T b
        · have heq : a = b := by
            rcases hab with hna | hnb
            · exact hiso a ha hna b hb he
            · exact (hiso b hb hnb a ha he.symm).symm
          subst heq
          have hna : a ∉ keptIndices env.n (env.stored L.laplacians[i]) := by
            rcases hab with h | h <;> exact h
          have h1 := hrow.2
          rw [Finset.sum_eq_single a] at h1
          · rw [h1]; unfold eye; rw [if_pos rfl]
          · intro c hcn hca
            rw [hPi, stationary_eq, if_neg]
            intro hcc
            exact hca (hiso a ha hna c (mem_range.1 hcn) hcc.symm).symm
          · intro hh; exact absurd (mem_range.2 ha) hh
        · rw [hPi, stationary_eq, if_neg (Ne.symm he)]
          unfold eye
          rw [if_neg]
          rintro rfl
          exact he rfl
      obtain ⟨A', B, e1, e2, e3⟩ := C40_sparse hid hidP (tau * lamda) tS ht0 hS
      rw [hA] at e1
      cases e1
      exact ⟨B, by simp only [if_true, e2], e3⟩
  obtain ⟨M, hM1, hM2⟩ := hM
  refine ⟨M, hM1, stoch_congr hM2.symm hAs, ?_⟩
  have hdu := hd0
  have hGu := hG
  have hcu := components_of_walk (K := K) hGu hc
  refine ⟨Pi, ?_, ?_, ?_, ?_⟩
  · rw [hPi, hdu]
    have := C41_invariant (K := K) hGu hcu
    exact ⟨this.1, this.2.2, C41_stochastic _⟩
  · intro hle
    refine hM2.symm.trans ?_
    have : A = fun a b => (1 - tau * lamda) * eye a b + tau * lamda * T a b := by
      unfold linApprox at hA
      rw [if_neg (not_lt.2 ht0), if_pos hle] at hA
      cases hA; rfl
    rw [this, ← hdu]
    intro a _ b _
    show _ = _
    ring
  · intro hgt hlt'
    refine hM2.symm.trans ?_
    have : A = fun i j => 1 / (1 - tS) * (T i j * (tau * lamda - tS) + Pi i j * (1 - tau * lamda)) := by
      unfold linApprox at hA
      rw [if_neg (not_lt.2 ht0), if_neg (not_le.2 hgt), if_pos hlt'] at hA
      cases hA; rfl
    rw [this, ← hdu]
    intro a _ b _
    show _ = _
    have h1 : (1 - tS) ≠ 0 := by intro hz; linarith
    have h2 : (tS - 1) ≠ 0 := by intro hz; linarith
    field_simp
    ring
  · intro hgt hge
    refine hM2.symm.trans ?_
    unfold linApprox at hA
    rw [if_neg (not_lt.2 ht0), if_neg (not_le.2 hgt), if_neg (not_lt.2 hge)] at hA
    cases hA
    exact EqOn.refl _ _

theorem gaps_pos : ∀ {l : List K}, l.Pairwise (· < ·) → ∀ x ∈ gaps l, 0 < x
  | [], _, x, hx => by simp [gaps] at hx
  | [_], _, x, hx => by simp [gaps] at hx
  | a :: b :: r, h, x, hx => by
    simp only [gaps, List.mem_cons] at hx
    rcases hx with rfl | hx
    · exact sub_pos.2 ((List.pairwise_cons.1 h).1 b (by simp))
    · exact gaps_pos (List.pairwise_cons.1 h).2 x (by simpa using hx)

theorem median_pos {l : List K} (h : ∀ x ∈ l, 0 < x) {m : K} (hm : median l = some m) : 0 < m := by
  have hs : ∀ x ∈ l.insertionSort (· ≤ ·), 0 < x := fun x hx => h x (by simpa using hx)
  unfold median at hm
  dsimp only at hm
  split at hm
  · cases hm
  · split at hm
    · exact hs _ (List.mem_of_getElem? hm)
    · split at hm
      · rename_i a b ha hb
        cases hm
        have := hs _ (List.mem_of_getElem? ha)
        have := hs _ (List.mem_of_getElem? hb)
        linarith
      · cases hm

theorem rate_nonneg (net : Net K) {l : Option K} (h : ∀ x, l = some x → 0 ≤ x) {r : K}
    (hr : net.rate l = some r) : 0 ≤ r := by
  cases l with
  | some x => cases hr; exact h _ rfl
  | none =>
    simp only [Net.rate, defaultRate, Option.map_eq_some_iff] at hr
    obtain ⟨m, hm, rfl⟩ := hr
    exact one_div_nonneg.2 (median_pos (gaps_pos (uniqueSorted_lt _)) hm).le

/-- The Laplacians are those of the graphs `G 0`, `G 1`, … of the intervals. -/
structure Describes (net : Net K) (L : Laps K) (G : Nat → Nat → Nat → Prop) : Prop where
  stop : L.kStop < (timesOf net.lin.events).length
  len : L.laplacians.length = L.kStop - L.kStart
  graph : ∀ i < L.laplacians.length, Undirected net.lin.n (G i)
  lap : ∀ (i : Nat) (hi : i < L.laplacians.length) (a b : Nat),
    L.laplacians[i] a b = walkLaplacian net.lin.n (G i) a b

/-- Duration of the `i`-th interval. -/
def tauOf (net : Net K) (L : Laps K) (fix : Bool) (i : Nat) : K :=
  if fix then 1 else (timesOf net.lin.events).getD (L.kStart + i + 1) 0 - (timesOf net.lin.events).getD (L.kStart + i) 0

theorem tauOf_nonneg {net : Net K} {L : Laps K} (hs : L.kStop < (timesOf net.lin.events).length) (fix : Bool)
    {i : Nat} (hi : i < L.kStop - L.kStart) : 0 ≤ tauOf net L fix i := by
  unfold tauOf
  split
  · exact zero_le_one
  · have hsorted : (timesOf net.lin.events).Pairwise (· < ·) := uniqueSorted_lt _
    have h1 : L.kStart + i + 1 < (timesOf net.lin.events).length := by omega
    have h2 : L.kStart + i < (timesOf net.lin.events).length := by omega
    rw [getD_elem _ _ h1, getD_elem _ _ h2]
    exact sub_nonneg.2 (List.pairwise_iff_getElem.1 hsorted _ _ h2 h1 (by omega)).le

/-- The linear matrices of the window. -/
def RightLin (net : Net K) (L : Laps K) (G : Nat → Nat → Nat → Prop) (fix : Bool) (l tS : K) (ms : List (Mat K)) :
    Prop :=
  (L.kStart < L.kStop → ms.length = L.kStop - L.kStart ∧ ∀ (i : Nat) (hi : i < ms.length),
    Stoch net.lin.n ms[i] ∧ LinearApprox net.lin.n (G i) (tauOf net L fix i * l) tS ms[i]) ∧
  (L.kStop ≤ L.kStart → ms = [eye])

theorem appendUntil_ok {α β ε : Type} {f : α → Except ε β} : ∀ {l : List α} {ys : List β},
    l.mapM f = .ok ys → appendUntil f l = (ys, none)
  | [], ys, h => by cases h; rfl
  | a :: l, ys, h => by
    rw [List.mapM_cons] at h
    unfold appendUntil
    cases hf : f a with
    | error e => rw [hf] at h; cases h
    | ok b =>
      rw [hf] at h
      cases hl : l.mapM f with
      | error e =>
        have h' : (do let bs ← l.mapM f; pure (b :: bs) : Except ε (List β)) = .ok ys := h
        rw [hl] at h'; cases h'
      | ok bs =>
        have h' : (do let bs ← l.mapM f; pure (b :: bs) : Except ε (List β)) = .ok ys := h
        rw [hl] at h'
        cases h'
        simp only [appendUntil_ok hl]

theorem linList_right {net : Net K} {L : Laps K} {G : Nat → Nat → Nat → Prop} (hD : Describes net L G)
    (hc : LabelSpec net.lin.n net.lin.comps)
    (hst : ∀ L : Mat K, ∀ i < net.lin.n, ∀ j < net.lin.n, L i j ≠ 0 → net.lin.stored L i j = true)
    {l tS : K} (h0 : 0 ≤ l) (hS : 1 < tS) (fix sparse : Bool) (hsp : L.kStop ≤ L.kStart → sparse = false) :
    ∃ ms, linList net L (stationaries net.lin.n net.lin.comps L) l tS fix sparse = (ms, none) ∧
      RightLin net L G fix l tS ms ∧ ms ≠ [] := by
  by_cases hlt : L.kStart < L.kStop
  · have hl2 : (((timesOf net.lin.events).take L.kStop).drop L.kStart).length = L.kStop - L.kStart := by
      have := hD.stop
      simp only [List.length_drop, List.length_take]; omega
    obtain ⟨ms, hms, hfa⟩ := mapM_ok (f := linMat net.lin (timesOf net.lin.events) L
        (stationaries net.lin.n net.lin.comps L) l tS fix sparse)
      (P := fun p M => Stoch net.lin.n M ∧ LinearApprox net.lin.n (G p.2) (tauOf net L fix p.2 * l) tS M)
      ((((timesOf net.lin.events).take L.kStop).drop L.kStart).zipIdx) (by
        rintro ⟨t, i⟩ hp
        rw [List.mem_zipIdx_iff_getElem?] at hp
        simp only at hp
        obtain ⟨hi, ht⟩ := List.getElem?_eq_some_iff.1 hp
        rw [List.getElem_drop, List.getElem_take] at ht
        have hi2 : i < L.laplacians.length := by rw [hD.len]; omega
        have hb : L.kStart + i < (timesOf net.lin.events).length := by have := hD.stop; omega
        have htau : (if fix then 1 else (timesOf net.lin.events).getD (L.kStart + i + 1) 0 - t) =
            tauOf net L fix i := by
          unfold tauOf
          rw [getD_elem _ _ hb, ht]
        have := linMat_right (times := timesOf net.lin.events) (lamda := l) (tS := tS) (fixTau := fix)
          (sparse := sparse) (t := t) (P := stationaries net.lin.n net.lin.comps L)
          hi2 (hD.graph i hi2) hc hst (hD.lap i hi2) (by
            unfold stationaries
            rw [List.getElem?_map, List.getElem?_eq_getElem hi2]
            rfl) hS (by
            rw [htau]
            exact mul_nonneg (tauOf_nonneg hD.stop fix (by omega)) h0)
        rw [htau] at this
        exact this)
    have hmlen : ms.length = L.kStop - L.kStart := by
      rw [← hfa.length_eq, List.length_zipIdx, hl2]
    refine ⟨ms, ?_, ⟨fun _ => ⟨hmlen, ?_⟩, fun h => by omega⟩, ?_⟩
    · unfold linList
      simp only [appendUntil_ok hms]
      rw [if_neg (by omega)]
    · intro i hi
      have := List.forall₂_iff_get.1 hfa
      have h3 := this.2 i (by rw [List.length_zipIdx, hl2]; omega) hi
      simpa only [List.get_eq_getElem, List.getElem_zipIdx, Nat.zero_add] using h3
    · intro hn; rw [hn] at hmlen; simp at hmlen; omega
  · have hemp : ((timesOf net.lin.events).take L.kStop).drop L.kStart = [] := by
      rw [List.drop_eq_nil_iff, List.length_take]; omega
    refine ⟨[eye], ?_, ⟨fun h => absurd h hlt, fun _ => rfl⟩, by simp⟩
    unfold linList
    simp only [hemp, List.zipIdx_nil, appendUntil, List.length_nil, if_true, hsp (by omega), Bool.false_eq_true,
      if_false]

theorem rightLin_stoch {net : Net K} {L : Laps K} {G : Nat → Nat → Nat → Prop} {fix : Bool} {l tS : K}
    {ms : List (Mat K)} (h : RightLin net L G fix l tS ms) : ∀ A ∈ ms, Stoch net.lin.n A := by
  intro A hA
  by_cases hlt : L.kStart < L.kStop
  · obtain ⟨i, hi, rfl⟩ := List.getElem_of_mem hA
    exact ((h.1 hlt).2 i hi).1
  · rw [h.2 (by omega)] at hA
    simp only [List.mem_singleton] at hA
    subst hA
    exact stoch_eye _

theorem product_right {n : Nat} {ms : List (Mat K)} (hne : ms ≠ []) (h : ∀ A ∈ ms, Stoch n A) (reverse save : Bool) :
    Products n reverse save ms (product n reverse save ms) := by
  obtain ⟨h1, h2⟩ := C38_products hne h reverse
  unfold product
  cases save with
  | true => exact ⟨rfl, h1, h2⟩
  | false =>
    simp only [Bool.false_eq_true, if_false]
    have hlast := C38_last_only n ms hne reverse none
    have hpos : 0 < ms.length := List.length_pos_iff.2 hne
    rw [List.getLast?_eq_getElem?, List.getElem?_eq_some_iff] at hlast
    obtain ⟨hk, hM⟩ := hlast
    obtain ⟨e1, e2⟩ := h2 _ hk
    rw [hM] at e1 e2
    refine ⟨rfl, ?_, e2⟩
    rw [h1, List.take_of_length_le] at e1
    · exact e1
    · cases reverse <;> simp <;> omega

end Verif.LinTrans
