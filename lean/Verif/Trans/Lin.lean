import Verif.Trans.LinModel
import Verif.Trans.Stationary
import Verif.TempNet.Props

/-!
# Linear approximations of the inter-event matrices: property C61, sparse part of C40 and C41
-/

set_option linter.dupNamespace false
set_option linter.unusedSectionVars false
set_option linter.unusedSimpArgs false

namespace Verif.Trans

open Verif.TempNet Finset

variable {K : Type} [Field K] [LinearOrder K] [IsStrictOrderedRing K]

theorem getD_elem {α : Type} (l : List α) (d : α) {i : Nat} (h : i < l.length) : l.getD i d = l[i] := by
  rw [List.getD_eq_getElem?_getD, List.getElem?_eq_getElem h]; rfl

theorem mapM_ok {α β ε : Type} {f : α → Except ε β} {P : α → β → Prop} : ∀ (l : List α),
    (∀ x ∈ l, ∃ y, f x = .ok y ∧ P x y) → ∃ ys, l.mapM f = .ok ys ∧ List.Forall₂ P l ys
  | [], _ => ⟨[], rfl, .nil⟩
  | a :: l, h => by
    obtain ⟨y, h1, h2⟩ := h a (by simp)
    obtain ⟨ys, h3, h4⟩ := mapM_ok l fun x hx => h x (by simp [hx])
    refine ⟨y :: ys, ?_, .cons h2 h4⟩
    rw [List.mapM_cons, h1]
    show (do let ys ← l.mapM f; pure (y :: ys)) = _
    rw [h3]
    rfl

/-! ## Sparse versions -/

/-- Outside of the indices `idx` the matrix is the identity. -/
def IdentityOff (n : Nat) (idx : List Nat) (A : Mat K) : Prop :=
  ∀ i < n, ∀ j < n, i ∉ idx ∨ j ∉ idx → A i j = eye i j

/-- **C40** (sparse version): interpolating on the kept rows and columns only gives the same
matrix as interpolating everywhere. -/
theorem C40_sparse {n : Nat} {idx : List Nat} {T Pi : Mat K} (hT : IdentityOff n idx T)
    (hP : IdentityOff n idx Pi) (t tS : K) (h0 : 0 ≤ t) (hS : 1 < tS) :
    ∃ A B, linApprox T Pi t tS = some A ∧ sparseLinApprox idx T Pi t tS = some B ∧ EqOn n A B := by
  obtain ⟨A, hA, hv⟩ := linApprox_path T Pi t tS h0 hS
  obtain ⟨B, hB, hw⟩ := linApprox_path (sub idx T) (sub idx Pi) t tS h0 hS
  refine ⟨A, expand idx B, hA, by unfold sparseLinApprox; rw [hB]; rfl, ?_⟩
  intro i hi j hj
  unfold expand
  by_cases h : i ∈ idx ∧ j ∈ idx
  · have h1 := List.idxOf_lt_length_iff.2 h.1
    have h2 := List.idxOf_lt_length_iff.2 h.2
    have g1 : idx.getD (idx.idxOf i) 0 = i := by rw [getD_elem _ _ h1, List.getElem_idxOf h1]
    have g2 : idx.getD (idx.idxOf j) 0 = j := by rw [getD_elem _ _ h2, List.getElem_idxOf h2]
    rw [if_pos h, hv, hw]
    unfold sub
    rw [g1, g2]
    have : (eye (idx.idxOf i) (idx.idxOf j) : K) = eye i j := by
      unfold eye
      by_cases he : i = j
      · subst he; simp
      · rw [if_neg he, if_neg]
        intro hc
        apply he
        rw [← g1, ← g2, hc]
    rw [this]
  · have h' : i ∉ idx ∨ j ∉ idx := by
      by_cases h1 : i ∈ idx
      · exact .inr fun h2 => h ⟨h1, h2⟩
      · exact .inl h1
    rw [if_neg h, hv, hT i hi j hj h', hP i hi j hj h']
    unfold eye
    split <;> ring

/-- **C41** (sparse version, `sparse_stationary_trans`, temporal_network.py:2619-2636, which stores
`stationary` of the small matrix `sub idx T` beside `idx`): the stationary matrix of the kept rows and columns is the kept
part of the stationary matrix, when components are not cut. -/
theorem C41_sparse {n : Nat} {idx : List Nat} (hn : idx.Nodup) (hr : ∀ i ∈ idx, i < n) {T : Mat K}
    (hT : IdentityOff n idx T) {lab lab' : Nat → Nat}
    (hcut : ∀ i ∈ idx, ∀ j < n, lab j = lab i → j ∈ idx)
    (hlab : ∀ a b (ha : a < idx.length) (hb : b < idx.length), lab' a = lab' b ↔ lab idx[a] = lab idx[b]) :
    EqOn idx.length (sub idx (stationary n lab T)) (stationary idx.length lab' (sub idx T)) := by
  classical
  have hcard : ∀ (m : Nat) (A : Mat K) (i : Nat), degs m A i = ((range m).filter fun j => A i j ≠ 0).card := by
    intro m A i
    unfold degs
    rw [Finset.card_def, Finset.filter_val, Finset.range_val]
    rw [show Multiset.range m = ((List.range m : List Nat) : Multiset Nat) from rfl, Multiset.filter_coe,
      Multiset.coe_card]
  have hdeg : ∀ a (ha : a < idx.length), degs idx.length (sub idx T) a = degs n T idx[a] := by
    intro a ha
    rw [hcard, hcard]
    apply Finset.card_bij (fun b _ => idx.getD b 0)
    · intro b hb
      simp only [mem_filter, mem_range] at hb ⊢
      have e : idx.getD b 0 = idx[b]'hb.1 := getD_elem _ _ hb.1
      refine ⟨by rw [e]; exact hr _ (List.getElem_mem _), ?_⟩
      have := hb.2
      unfold sub at this
      rwa [getD_elem _ _ ha] at this
    · intro b hb c hc h
      simp only [mem_filter, mem_range] at hb hc
      rw [getD_elem _ _ hb.1, getD_elem _ _ hc.1] at h
      exact (List.Nodup.getElem_inj_iff hn).1 h
    · intro j hj
      simp only [mem_filter, mem_range] at hj
      have hjm : j ∈ idx := by
        by_contra hc
        have := hT idx[a] (hr _ (List.getElem_mem _)) j hj.1 (.inr hc)
        apply hj.2
        rw [this]
        unfold eye
        rw [if_neg]
        rintro rfl
        exact hc (List.getElem_mem _)
      obtain ⟨b, hb, rfl⟩ := List.getElem_of_mem hjm
      refine ⟨b, ?_, getD_elem _ _ hb⟩
      simp only [mem_filter, mem_range]
      refine ⟨hb, ?_⟩
      unfold sub
      rw [getD_elem _ _ ha, getD_elem _ _ hb]
      exact hj.2
  have hvol : ∀ a (ha : a < idx.length), vol idx.length lab' (sub idx T) (lab' a) = vol n lab T (lab idx[a]) := by
    intro a ha
    unfold vol
    rw [← Finset.sum_filter, ← Finset.sum_filter]
    apply Finset.sum_bij (fun b _ => idx.getD b 0)
    · intro b hb
      simp only [mem_filter, mem_range] at hb ⊢
      rw [getD_elem _ _ hb.1]
      exact ⟨hr _ (List.getElem_mem _), (hlab b a hb.1 ha).1 hb.2⟩
    · intro b hb c hc h
      simp only [mem_filter, mem_range] at hb hc
      rw [getD_elem _ _ hb.1, getD_elem _ _ hc.1] at h
      exact (List.Nodup.getElem_inj_iff hn).1 h
    · intro j hj
      simp only [mem_filter, mem_range] at hj
      obtain ⟨b, hb, rfl⟩ := List.getElem_of_mem (hcut _ (List.getElem_mem ha) j hj.1 hj.2)
      refine ⟨b, ?_, getD_elem _ _ hb⟩
      simp only [mem_filter, mem_range]
      exact ⟨hb, (hlab b a hb ha).2 hj.2⟩
    · intro b hb
      simp only [mem_filter, mem_range] at hb
      rw [getD_elem _ _ hb.1, hdeg b hb.1]
  intro a ha b hb
  show stationary n lab T (idx.getD a 0) (idx.getD b 0) = _
  rw [getD_elem _ _ ha, getD_elem _ _ hb, stationary_eq, stationary_eq, hvol a ha, hdeg b hb]
  by_cases h : lab' b = lab' a
  · rw [if_pos h, if_pos ((hlab b a hb ha).1 h)]
  · rw [if_neg h, if_neg fun hc => h ((hlab b a hb ha).2 hc)]

/-- Three nodes, the first two in contact, the kept indices being those. -/
example : let T : Mat ℚ := fun i j => if i = 2 ∨ j = 2 then eye i j else if i = j then 0 else 1
    IdentityOff 3 [0, 1] T ∧ ([0, 1] : List Nat).Nodup ∧
    ∀ i ∈ [0, 1], ∀ j < 3, (fun k => k / 2) j = (fun k => k / 2) i → j ∈ [0, 1] := by
  refine ⟨?_, by decide, by decide⟩
  intro i hi j hj h
  interval_cases i <;> interval_cases j <;> simp_all [eye]

/-! ## The method -/

/-- The labels are those of the components of the graph of the nonzero entries, taken
without direction. -/
def LabelSpec (n : Nat) (comps : Mat K → Nat → Nat) : Prop :=
  ∀ T, Components n (fun i j => i < n ∧ j < n ∧ (T i j ≠ 0 ∨ T j i ≠ 0)) (comps T)

theorem active_undirected {n : Nat} {evs : List (Event Nat K)} (h : Proper n evs) (t : K) :
    Undirected n (Active evs t) := by
  refine ⟨?_, ?_, ?_⟩
  · rintro i j ⟨e, he, hp, h1, h2⟩
    exact ⟨e, he, hp.symm, h1, h2⟩
  · rintro i ⟨e, he, hp, h1, h2⟩
    apply h.noLoops e he
    rcases hp with ⟨a, b⟩ | ⟨a, b⟩ <;> rw [a, b]
  · rintro i j ⟨e, he, hp, h1, h2⟩
    have := h.inRange e he
    rcases hp with ⟨a, b⟩ | ⟨a, b⟩
    · rw [← a, ← b]; exact this
    · rw [← a, ← b]; exact this.symm

theorem components_of_walk {n : Nat} {G : Nat → Nat → Prop} (hG : Undirected n G)
    {comps : Mat K → Nat → Nat} (hc : LabelSpec n comps) : Components n G (comps (walk n G)) := by
  classical
  have hstep : ∀ i j, i < n ∧ j < n ∧ ((walk n G i j : K) ≠ 0 ∨ (walk n G j i : K) ≠ 0) → G i j ∨ i = j := by
    have h1 : ∀ i j, (walk n G i j : K) ≠ 0 → G i j ∨ i = j := by
      intro i j h
      by_cases hd : degree n G i = 0
      · rw [walk_isolated hd] at h
        exact .inr (by by_contra hc; exact h (if_neg hc))
      · rw [walk_connected hd] at h
        exact .inl (by by_contra hc; exact h (if_neg hc))
    rintro i j ⟨_, _, h | h⟩
    · exact h1 i j h
    · rcases h1 j i h with h | h
      · exact .inl (hG.symm _ _ h)
      · exact .inr h.symm
  intro i hi j hj
  rw [hc (walk n G) i hi j hj]
  constructor
  · intro h
    induction h with
    | refl => exact .refl
    | tail hab hbc ih =>
      have hb := hbc.1
      rcases hstep _ _ hbc with h | h
      · exact (ih hb).tail h
      · subst h; exact ih hb
  · intro h
    have : ∀ k, Relation.ReflTransGen G i k → Relation.ReflTransGen
        (fun i j => i < n ∧ j < n ∧ ((walk n G i j : K) ≠ 0 ∨ (walk n G j i : K) ≠ 0)) i k := by
      intro k hk
      induction hk with
      | refl => exact .refl
      | tail _ hbc ih =>
        have hr := hG.inRange _ _ hbc
        refine ih.tail ⟨hr.1, hr.2, .inl ?_⟩
        have hd := degree_pos hG hbc
        rw [walk_connected hd, if_pos hbc]
        exact one_div_ne_zero (by exact_mod_cast hd)
    exact this j h

theorem walk_stoch {n : Nat} {G : Nat → Nat → Prop} : Stoch n (walk n G : Mat K) := by
  classical
  intro i hi
  by_cases hd : degree n G i = 0
  · simp only [walk_isolated hd]
    refine ⟨fun j _ => by split <;> simp, by simp [hi]⟩
  · simp only [walk_connected hd]
    have hd' : (degree n G i : K) ≠ 0 := by exact_mod_cast hd
    refine ⟨fun j _ => by
      split
      · exact one_div_nonneg.2 (Nat.cast_nonneg _)
      · exact le_rfl, ?_⟩
    rw [← Finset.sum_filter, Finset.sum_const, nsmul_eq_mul]
    exact mul_one_div_cancel hd'

/-- What a linear inter-event matrix should be: for a graph `G` and a rescaled time `t`, the
identity moved linearly to the random walk up to time 1, then linearly to its stationary
matrix up to time `tS`. -/
def LinearApprox (n : Nat) (G : Nat → Nat → Prop) (t tS : K) (M : Mat K) : Prop :=
  ∃ Pi : Mat K, (EqOn n (mul n Pi (walk n G)) Pi ∧ EqOn n (mul n Pi Pi) Pi ∧ Stoch n Pi) ∧
    (t ≤ 1 → EqOn n M fun i j => eye i j + t * (walk n G i j - eye i j)) ∧
    (1 < t → t < tS → EqOn n M fun i j => walk n G i j + (t - 1) / (tS - 1) * (Pi i j - walk n G i j)) ∧
    (1 < t → tS ≤ t → EqOn n M Pi)

theorem kept_mem' {n : Nat} {stored : Nat → Nat → Bool} {i : Nat} :
    i ∈ keptIndices n stored ↔ i < n ∧ ∃ j < n, stored i j = true ∨ stored j i = true := by
  simp [keptIndices]

/-- **C61**.  On a new network with lasting, non-overlapping contacts, for a rate that is not
negative and `t_s` larger than 1, the linear inter-event matrices are computed, dense or
sparse; there is one per interval of the window, it is stochastic and the linear approximation
belonging to the contacts active in the interval.  Missing: windows without interval with the
sparse option, and networks whose window was changed, for which the claim is false. -/
theorem C61_linear_partial {env : LinEnv K} (h : Proper env.n env.events) (hne : env.events ≠ [])
    (hc : LabelSpec env.n env.comps)
    (hst : ∀ L : Mat K, ∀ i < env.n, ∀ j < env.n, L i j ≠ 0 → env.stored L i j = true)
    (lamda tS : K) (h0 : 0 ≤ lamda) (hS : 1 < tS) (fixTau sparse : Bool) (tStart tStop : Option K) :
    ∃ L, computeLaplacians env.n env.events env.startFirst tStart tStop = .ok L ∧
      (L.kStart < L.kStop → ∃ s ms, LinState.fresh.inter env lamda tS fixTau sparse tStart tStop = .ok s ∧
        s.interLin.lookup (lamda, tS) = some ms ∧ ms.length = L.kStop - L.kStart ∧
        ∀ (i : Nat) (hi : i < ms.length) (hk : L.kStart + i + 1 < (timesOf env.events).length) (u : K),
          (timesOf env.events)[L.kStart + i] ≤ u → u < (timesOf env.events)[L.kStart + i + 1] →
          Stoch env.n ms[i] ∧ LinearApprox env.n (Active env.events u)
            ((if fixTau then 1 else (timesOf env.events)[L.kStart + i + 1] -
              (timesOf env.events)[L.kStart + i]) * lamda) tS ms[i]) ∧
      (L.kStop ≤ L.kStart → sparse = false → ∃ s,
        LinState.fresh.inter env lamda tS fixTau sparse tStart tStop = .ok s ∧
        s.interLin.lookup (lamda, tS) = some [eye]) := by
  have hsorted : (timesOf env.events).Pairwise (· < ·) := uniqueSorted_lt _
  obtain ⟨L, hL, -, -, hlen, hlap⟩ := C33_active_contacts_partial h hne env.startFirst tStart tStop
  obtain ⟨k, m, hk, hm, s, -, -, -, heq⟩ :=
    computeLaplacians_eq h.inRange h.noLoops hne env.startFirst tStart tStop
  have hkm : L.kStop < (timesOf env.events).length := by
    rw [hL] at heq
    split at heq
    · cases heq
    · cases heq; exact hm
  have hmono := List.pairwise_iff_getElem.1 hsorted
  -- each matrix
  have hmat : ∀ (i : Nat) (_ : i < L.kStop - L.kStart) (h1 : L.kStart + i + 1 < (timesOf env.events).length),
      ∃ M, linMat env (timesOf env.events) L (stationaries env.n env.comps L) lamda tS fixTau sparse
        ((timesOf env.events)[L.kStart + i], i) = .ok M ∧
      ∀ u, (timesOf env.events)[L.kStart + i] ≤ u → u < (timesOf env.events)[L.kStart + i + 1] →
          Stoch env.n M ∧ LinearApprox env.n (Active env.events u)
            ((if fixTau then 1 else (timesOf env.events)[L.kStart + i + 1] -
              (timesOf env.events)[L.kStart + i]) * lamda) tS M := by
    intro i hi h1
    have hi2 : i < L.laplacians.length := by omega
    have hlt : (timesOf env.events)[L.kStart + i] < (timesOf env.events)[L.kStart + i + 1] :=
      hmono _ _ (by omega) (by omega) (by omega)
    have hd : ∀ u, (timesOf env.events)[L.kStart + i] ≤ u → u < (timesOf env.events)[L.kStart + i + 1] →
        discrete L.laplacians[i] = (walk env.n (Active env.events u) : Mat K) := by
      intro u hu1 hu2
      funext a b
      unfold discrete walk
      rw [hlap i hi2 h1 u hu1 hu2 a b]
    have hd0 := hd _ le_rfl hlt
    set T : Mat K := discrete L.laplacians[i] with hTdef
    set Pi : Mat K := stationary env.n (env.comps T) T with hPi
    set tau : K := (if fixTau then 1 else (timesOf env.events)[L.kStart + i + 1] -
      (timesOf env.events)[L.kStart + i]) with htau
    have ht0 : 0 ≤ tau * lamda := by
      apply mul_nonneg _ h0
      rw [htau]
      split
      · exact zero_le_one
      · exact sub_nonneg.2 hlt.le
    have hG := active_undirected h (timesOf env.events)[L.kStart + i]
    have hcomp := components_of_walk (K := K) hG hc
    rw [← hd0] at hcomp
    have hTs : Stoch env.n T := by rw [hd0]; exact walk_stoch
    have hPs : Stoch env.n Pi := by
      rw [hPi, hd0]; exact C41_stochastic _
    obtain ⟨A, hA, hAs⟩ := C40_stochastic hTs hPs (tau * lamda) tS ht0 hS
    have hP0 : (stationaries env.n env.comps L)[i]? = some Pi := by
      unfold stationaries
      rw [List.getElem?_map, List.getElem?_eq_getElem hi2]
      rfl
    have hM : ∃ M, linMat env (timesOf env.events) L (stationaries env.n env.comps L) lamda tS fixTau sparse
        ((timesOf env.events)[L.kStart + i], i) = .ok M ∧ EqOn env.n A M := by
      unfold linMat
      simp only [hP0, getD_elem _ _ hi2, getD_elem _ _ h1, ← hTdef, ← htau]
      cases sparse
      · refine ⟨A, ?_, EqOn.refl _ _⟩
        simp only [Bool.false_eq_true, if_false, hA]
      · have hid : IdentityOff env.n (keptIndices env.n (env.stored L.laplacians[i])) T := by
          intro a ha b hb hab
          have hz : L.laplacians[i] a b = 0 := by
            by_contra hcon
            have := hst _ a ha b hb hcon
            rcases hab with hab | hab
            · exact hab (kept_mem'.2 ⟨ha, b, hb, .inl this⟩)
            · exact hab (kept_mem'.2 ⟨hb, a, ha, .inr this⟩)
          rw [hTdef]
          unfold discrete
          rw [hz, sub_zero]
        have hidP : IdentityOff env.n (keptIndices env.n (env.stored L.laplacians[i])) Pi := by
          have hiso : ∀ a < env.n, a ∉ keptIndices env.n (env.stored L.laplacians[i]) →
              ∀ b < env.n, env.comps T a = env.comps T b → a = b := by
            intro a ha hna b hb hab
            rw [hcomp a ha b hb] at hab
            rcases Relation.ReflTransGen.cases_head hab with rfl | ⟨c, hac, -⟩
            · rfl
            · exfalso
              have hdeg := degree_pos hG hac
              have hcn := (hG.inRange _ _ hac).2
              have hTac : T a c ≠ 0 := by
                classical
                rw [hd0, walk_connected hdeg, if_pos hac]
                exact one_div_ne_zero (by exact_mod_cast hdeg)
              have := hid a ha c hcn (.inl hna)
              rw [this] at hTac
              apply hTac
              unfold eye
              rw [if_neg]
              rintro rfl
              exact hG.noLoop _ hac
          intro a ha b hb hab
          have hrow := hPs a ha
          by_cases he : env.comps T a = env.comps T b
          · have heq : a = b := by
              rcases hab with hna | hnb
              · exact hiso a ha hna b hb he
              · exact (hiso b hb hnb a ha he.symm).symm
            subst heq
            have hna : a ∉ keptIndices env.n (env.stored L.laplacians[i]) := by
              rcases hab with h | h <;> exact h
            have h1 := hrow.2
            rw [Finset.sum_eq_single a] at h1
            · rw [h1]; unfold eye; rw [if_pos rfl]
            · intro c hcn hca
              rw [hPi, stationary_eq, if_neg]
              intro hcc
              exact hca (hiso a ha hna c (mem_range.1 hcn) hcc.symm).symm
            · intro hh; exact absurd (mem_range.2 ha) hh
          · rw [hPi, stationary_eq, if_neg (Ne.symm he)]
            unfold eye
            rw [if_neg]
            rintro rfl
            exact he rfl
        obtain ⟨A', B, e1, e2, e3⟩ := C40_sparse hid hidP (tau * lamda) tS ht0 hS
        rw [hA] at e1
        cases e1
        exact ⟨B, by simp only [if_true, e2], e3⟩
    obtain ⟨M, hM1, hM2⟩ := hM
    refine ⟨M, hM1, fun u hu1 hu2 => ⟨stoch_congr hM2.symm hAs, ?_⟩⟩
    have hdu := hd u hu1 hu2
    have hGu := active_undirected h u
    have hcu := components_of_walk (K := K) hGu hc
    refine ⟨Pi, ?_, ?_, ?_, ?_⟩
    · rw [hPi, hdu]
      have := C41_invariant (K := K) hGu hcu
      exact ⟨this.1, this.2.2, C41_stochastic _⟩
    · intro hle
      refine hM2.symm.trans ?_
      have : A = fun a b => (1 - tau * lamda) * eye a b + tau * lamda * T a b := by
        unfold linApprox at hA
        rw [if_neg (not_lt.2 ht0), if_pos hle] at hA
        cases hA; rfl
      rw [this, ← hdu]
      intro a _ b _
      show _ = _
      ring
    · intro hgt hlt'
      refine hM2.symm.trans ?_
      have : A = fun i j => 1 / (1 - tS) * (T i j * (tau * lamda - tS) + Pi i j * (1 - tau * lamda)) := by
        unfold linApprox at hA
        rw [if_neg (not_lt.2 ht0), if_neg (not_le.2 hgt), if_pos hlt'] at hA
        cases hA; rfl
      rw [this, ← hdu]
      intro a _ b _
      show _ = _
      have h1 : (1 - tS) ≠ 0 := by intro hz; linarith
      have h2 : (tS - 1) ≠ 0 := by intro hz; linarith
      field_simp
      ring
    · intro hgt hge
      refine hM2.symm.trans ?_
      unfold linApprox at hA
      rw [if_neg (not_lt.2 ht0), if_neg (not_le.2 hgt), if_neg (not_lt.2 hge)] at hA
      cases hA
      exact EqOn.refl _ _
  refine ⟨L, hL, ?_, ?_⟩
  · intro hlt
    have hl2 : (((timesOf env.events).take L.kStop).drop L.kStart).length = L.kStop - L.kStart := by
      simp only [List.length_drop, List.length_take]; omega
    obtain ⟨ms, hms, hfa⟩ := mapM_ok (f := linMat env (timesOf env.events) L (stationaries env.n env.comps L)
        lamda tS fixTau sparse)
      (P := fun p M => ∀ (i : Nat) (hi : i < L.kStop - L.kStart)
        (h1 : L.kStart + i + 1 < (timesOf env.events).length),
        p = ((timesOf env.events)[L.kStart + i], i) →
        ∀ u, (timesOf env.events)[L.kStart + i] ≤ u → u < (timesOf env.events)[L.kStart + i + 1] →
          Stoch env.n M ∧ LinearApprox env.n (Active env.events u)
            ((if fixTau then 1 else (timesOf env.events)[L.kStart + i + 1] -
              (timesOf env.events)[L.kStart + i]) * lamda) tS M)
      ((((timesOf env.events).take L.kStop).drop L.kStart).zipIdx) (by
        rintro ⟨t, i⟩ hp
        rw [List.mem_zipIdx_iff_getElem?] at hp
        simp only at hp
        obtain ⟨hi, ht⟩ := List.getElem?_eq_some_iff.1 hp
        rw [List.getElem_drop, List.getElem_take] at ht
        obtain ⟨M, h1, h2⟩ := hmat i (by omega) (by omega)
        subst ht
        refine ⟨M, h1, ?_⟩
        intro i' hi' h1' hpe
        have : i = i' := (Prod.mk.inj hpe).2
        subst this
        exact h2)
    have hmlen : ms.length = L.kStop - L.kStart := by
      rw [← hfa.length_eq, List.length_zipIdx, hl2]
    have hlin : linMats env L (stationaries env.n env.comps L) lamda tS fixTau sparse = .ok ms := by
      unfold linMats
      simp only [hms]
      rw [if_neg (by omega)]
    refine ⟨⟨some L, some (stationaries env.n env.comps L), [((lamda, tS), ms)]⟩, ms, ?_, by simp, hmlen, ?_⟩
    · unfold LinState.inter LinState.ensure LinState.fresh
      simp only [hL, hlin, List.lookup_nil]
    · intro i hi hk1 u hu1 hu2
      have := List.forall₂_iff_get.1 hfa
      have h3 := this.2 i (by rw [List.length_zipIdx, hl2]; omega) hi
      refine h3 i (by omega) hk1 ?_ u hu1 hu2
      simp only [List.get_eq_getElem, List.getElem_zipIdx, List.getElem_drop, List.getElem_take, Nat.zero_add]
  · intro hge hsp
    subst hsp
    have hemp : ((timesOf env.events).take L.kStop).drop L.kStart = [] := by
      rw [List.drop_eq_nil_iff, List.length_take]; omega
    refine ⟨⟨some L, some (stationaries env.n env.comps L), [((lamda, tS), [eye])]⟩, ?_, by simp⟩
    unfold LinState.inter LinState.ensure LinState.fresh linMats
    simp only [hL, hemp, List.zipIdx_nil, List.mapM_nil, List.lookup_nil]
    rfl

/-- Contacts of the examples: 0 and 1 until time 20, then 1 and 2 until time 40. -/
def exLin : List (Event Nat ℚ) := [⟨0, 1, 0, 20⟩, ⟨1, 2, 20, 40⟩]

/-- Component labels by exhaustive search: the number of the least node reached. -/
noncomputable def exComps (n : Nat) (T : Mat ℚ) (i : Nat) : Nat := by
  classical
  exact if h : ∃ k, k < n ∧ Relation.ReflTransGen
    (fun i j => i < n ∧ j < n ∧ (T i j ≠ 0 ∨ T j i ≠ 0)) i k then Nat.find h else n

theorem exComps_spec (n : Nat) : LabelSpec n (exComps n) := by
  classical
  intro T i hi j hj
  set R := fun i j => i < n ∧ j < n ∧ (T i j ≠ 0 ∨ T j i ≠ 0) with hR
  have hsym : ∀ a b, Relation.ReflTransGen R a b → Relation.ReflTransGen R b a := by
    intro a b h
    induction h with
    | refl => exact .refl
    | tail _ hbc ih => exact .head ⟨hbc.2.1, hbc.1, hbc.2.2.symm⟩ ih
  have hex : ∀ a, a < n → ∃ k, k < n ∧ Relation.ReflTransGen R a k := fun a ha => ⟨a, ha, .refl⟩
  have hv : ∀ a (ha : a < n), exComps n T a = Nat.find (hex a ha) := by
    intro a ha
    unfold exComps
    rw [dif_pos (hex a ha)]
  rw [hv i hi, hv j hj]
  constructor
  · intro h
    have h1 := (Nat.find_spec (hex i hi)).2
    have h2 := (Nat.find_spec (hex j hj)).2
    rw [← h] at h2
    exact h1.trans (hsym _ _ h2)
  · intro h
    apply le_antisymm
    · exact Nat.find_min' _ ⟨(Nat.find_spec (hex j hj)).1, h.trans (Nat.find_spec (hex j hj)).2⟩
    · exact Nat.find_min' _ ⟨(Nat.find_spec (hex i hi)).1, (hsym _ _ h).trans (Nat.find_spec (hex i hi)).2⟩

theorem exLin_proper : Proper 3 exLin := by
  refine ⟨?_, ?_, ?_, ?_⟩
  · intro e he
    simp only [exLin, List.mem_cons, List.not_mem_nil, or_false] at he
    rcases he with rfl | rfl <;> simp
  · intro e he
    simp only [exLin, List.mem_cons, List.not_mem_nil, or_false] at he
    rcases he with rfl | rfl <;> simp
  · intro e he
    simp only [exLin, List.mem_cons, List.not_mem_nil, or_false] at he
    rcases he with rfl | rfl <;> norm_num
  · unfold Separate exLin
    simp [Event.Pair]

example : Proper 3 exLin ∧ exLin ≠ [] ∧ LabelSpec 3 (exComps 3) ∧ (0 : ℚ) ≤ 1 ∧ (1 : ℚ) < 10 ∧
    (match computeLaplacians 3 exLin (fun _ => true) none none with
      | .ok L => decide (L.kStart < L.kStop) | .error _ => false) = true :=
  ⟨exLin_proper, by decide, exComps_spec 3, by norm_num, by norm_num, by decide +kernel⟩

/-- **C61** is violated: with the sparse option, a window without interval makes the method fail
(the dense option gives the identity). -/
theorem C61_empty_window_violated {env : LinEnv K} (lamda tS : K) (fixTau : Bool) (tStart tStop : Option K)
    {L : Laps K} (hL : computeLaplacians env.n env.events env.startFirst tStart tStop = .ok L)
    (hw : L.kStop ≤ L.kStart) :
    LinState.fresh.inter env lamda tS fixTau true tStart tStop = .error .attributeError := by
  have hemp : ((timesOf env.events).take L.kStop).drop L.kStart = [] := by
    rw [List.drop_eq_nil_iff, List.length_take]; omega
  unfold LinState.inter LinState.ensure LinState.fresh linMats
  simp only [hL, hemp, List.zipIdx_nil, List.mapM_nil, List.lookup_nil]
  rfl

/-- Such windows exist. -/
example : (match computeLaplacians 3 exLin (fun _ => true) (some 20) (some 20) with
    | .ok L => decide (L.kStop ≤ L.kStart) | .error _ => false) = true := by decide +kernel

/-- **C61** is violated: the stationary matrices of the first window are used for the next one.
After the Laplacians are recomputed for the second contact of the example, the linear
approximation at a new rate moves node 0, which has no contact any more, to node 1. -/
theorem C61_stale_window_violated (comps : Mat ℚ → Nat → Nat) (hc : LabelSpec 3 comps)
    (stored : Mat ℚ → Nat → Nat → Bool) :
    let env : LinEnv ℚ := ⟨3, exLin, fun _ => true, comps, stored⟩
    (∀ u, 20 ≤ u → u < 40 → ∀ j, ¬ Active exLin u 0 j) ∧
    ∃ s1 s2 s3 M, LinState.fresh.inter env 1 10 false false (some 0) (some 20) = .ok s1 ∧
      s1.laplacians env (some 20) (some 40) = .ok s2 ∧ s2.inter env 2 10 false false (some 20) (some 40) = .ok s3 ∧
      s3.interLin.lookup (2, 10) = some [M] ∧ 0 < M 0 1 := by
  intro env
  constructor
  · rintro u hu1 hu2 j ⟨e, he, hp, h1, h2⟩
    simp only [exLin, List.mem_cons, List.not_mem_nil, or_false] at he
    rcases he with rfl | rfl
    · exact absurd h2 (not_lt.2 hu1)
    · rcases hp with ⟨a, _⟩ | ⟨_, a⟩ <;> exact absurd a (by decide)
  · have h1 : (match computeLaplacians 3 exLin (fun _ => true) (some 0) (some 20) with
      | .ok L => decide (L.kStart = 0 ∧ L.kStop = 1 ∧ L.laplacians.length = 1 ∧
          discrete (L.laplacians.getD 0 eye) 0 1 = 1 ∧ degs 3 (discrete (L.laplacians.getD 0 eye)) 0 = 1 ∧
          degs 3 (discrete (L.laplacians.getD 0 eye)) 1 = 1)
      | .error _ => false) = true := by decide +kernel
    have h2 : (match computeLaplacians 3 exLin (fun _ => true) (some 20) (some 40) with
      | .ok L => decide (L.kStart = 1 ∧ L.kStop = 2) | .error _ => false) = true := by decide +kernel
    have h3 : timesOf exLin = [0, 20, 40] := by decide +kernel
    cases hL1 : computeLaplacians 3 exLin (fun _ => true) (some 0) (some 20) with
    | error e => rw [hL1] at h1; simp at h1
    | ok L1 =>
      cases hL2 : computeLaplacians 3 exLin (fun _ => true) (some 20) (some 40) with
      | error e => rw [hL2] at h2; simp at h2
      | ok L2 =>
        rw [hL1] at h1
        rw [hL2] at h2
        simp only [decide_eq_true_eq] at h1 h2
        obtain ⟨a1, a2, a3, a4, a5, a6⟩ := h1
        obtain ⟨L0, hL0⟩ := List.length_eq_one_iff.1 a3
        rw [hL0] at a4 a5 a6
        simp only [List.getD_cons_zero] at a4 a5 a6
        set T := discrete L0 with hT
        set Pi := stationary 3 (comps T) T with hPi
        have hP : stationaries 3 comps L1 = [Pi] := by
          unfold stationaries; rw [hL0]; rfl
        have hlin1 : linMats env L1 [Pi] 1 10 false false = .ok [Pi] := by
          unfold linMats linMat linApprox
          simp only [env, h3, a1, a2, List.take, List.drop, List.zipIdx_cons, List.zipIdx_nil, List.mapM_cons,
            List.mapM_nil]
          norm_num [bind, Except.bind, pure, Except.pure]
        have hlin2 : linMats env L2 [Pi] 2 10 false false = .ok [Pi] := by
          unfold linMats linMat linApprox
          simp only [env, h3, h2.1, h2.2, List.take, List.drop, List.zipIdx_cons, List.zipIdx_nil, List.mapM_cons,
            List.mapM_nil]
          norm_num [bind, Except.bind, pure, Except.pure]
        refine ⟨⟨some L1, some [Pi], [((1, 10), [Pi])]⟩, ⟨some L2, some [Pi], [((1, 10), [Pi])]⟩,
          ⟨some L2, some [Pi], [((2, 10), [Pi]), ((1, 10), [Pi])]⟩, Pi, ?_, ?_, ?_, by simp, ?_⟩
        · unfold LinState.inter LinState.ensure LinState.fresh
          simp only [show computeLaplacians env.n env.events env.startFirst (some 0) (some 20) = .ok L1 from hL1,
            show stationaries env.n env.comps L1 = [Pi] from hP, hlin1, List.lookup_nil]
        · unfold LinState.laplacians
          simp only [show computeLaplacians env.n env.events env.startFirst (some 20) (some 40) = .ok L2 from hL2]
        · unfold LinState.inter LinState.ensure
          have : List.lookup ((2 : ℚ), (10 : ℚ)) [((1, 10), [Pi])] = none := by
            have : (((2 : ℚ), (10 : ℚ)) == (1, 10)) = false := by decide +kernel
            rw [List.lookup, this]
            rfl
          simp only [this, hlin2]
        · have hl : comps T 1 = comps T 0 := by
            refine ((hc T 0 (by decide) 1 (by decide)).2 (.single ⟨by decide, by decide, .inl ?_⟩)).symm
            rw [a4]; exact one_ne_zero
          rw [hPi, stationary_eq, if_pos hl]
          apply div_pos
          · rw [a6]; norm_num
          · unfold vol
            have : (0 : ℚ) < ((∑ j ∈ range 3, if comps T j = comps T 0 then degs 3 T j else 0 : Nat) : ℚ) := by
              rw [Nat.cast_pos]
              apply Finset.sum_pos' (fun _ _ => Nat.zero_le _) ⟨0, by decide, by rw [if_pos rfl, a5]; decide⟩
            exact_mod_cast this

end Verif.Trans
