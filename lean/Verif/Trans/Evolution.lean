import Verif.Trans.Expm

/-!
# Transition matrices depend on the contacts only: property C59
-/

set_option linter.dupNamespace false
set_option linter.unusedSectionVars false
set_option linter.unusedSimpArgs false

namespace Verif.Trans

open Verif.TempNet Finset NormedSpace

/-! ## Products of exponentials over a time grid -/

/-- Propagator from `a` to `b` with a generator frozen at `a`. -/
noncomputable def segment (n : Nat) (lamda : ℝ) (g : ℝ → Mat ℝ) (a b : ℝ) : Mat ℝ :=
  expm n fun i j => -((b - a) * lamda) * g a i j

/-- Propagators of the intervals of a grid. -/
noncomputable def segments (n : Nat) (lamda : ℝ) (g : ℝ → Mat ℝ) : List ℝ → List (Mat ℝ)
  | a :: b :: r => segment n lamda g a b :: segments n lamda g (b :: r)
  | _ => []

/-- The generator does not change within the intervals of the grid. -/
def Frozen (n : Nat) (g : ℝ → Mat ℝ) : List ℝ → Prop
  | a :: b :: r => (∀ u, a ≤ u → u < b → EqOn n (g u) (g a)) ∧ Frozen n g (b :: r)
  | _ => True

theorem expm_mul (n : Nat) (M : Mat ℝ) (s t : ℝ) :
    EqOn n (mul n (expm n fun i j => s * M i j) (expm n fun i j => t * M i j))
      (expm n fun i j => (s + t) * M i j) := by
  intro i hi j hj
  have h1 : (Matrix.of fun a b : Fin n => (s + t) * M a b) =
      (Matrix.of fun a b : Fin n => s * M a b) + Matrix.of fun a b : Fin n => t * M a b := by
    ext a b; simp [add_mul]
  have hc : Commute (Matrix.of fun a b : Fin n => s * M a b) (Matrix.of fun a b : Fin n => t * M a b) := by
    have e1 : (Matrix.of fun a b : Fin n => s * M a b) = s • Matrix.of fun a b : Fin n => M a b := by
      ext a b; simp
    have e2 : (Matrix.of fun a b : Fin n => t * M a b) = t • Matrix.of fun a b : Fin n => M a b := by
      ext a b; simp
    rw [e1, e2]
    exact ((Commute.refl _).smul_left s).smul_right t
  have h2 := Matrix.exp_add_of_commute _ _ hc
  rw [← h1] at h2
  have h3 := congrFun (congrFun h2 ⟨i, hi⟩) ⟨j, hj⟩
  rw [Matrix.mul_apply] at h3
  unfold mul
  rw [Finset.sum_range]
  have e : expm n (fun i j => (s + t) * M i j) i j =
      exp (Matrix.of fun a b : Fin n => (s + t) * M a b) ⟨i, hi⟩ ⟨j, hj⟩ := by
    unfold expm; rw [dif_pos ⟨hi, hj⟩]
  rw [e, h3]
  refine Finset.sum_congr rfl fun k _ => ?_
  unfold expm
  rw [dif_pos ⟨hi, k.2⟩, dif_pos ⟨k.2, hj⟩]

theorem segment_split {n : Nat} {lamda : ℝ} {g : ℝ → Mat ℝ} {a x b : ℝ}
    (hg : EqOn n (g x) (g a)) :
    EqOn n (mul n (segment n lamda g a x) (segment n lamda g x b)) (segment n lamda g a b) ∧
    EqOn n (mul n (segment n lamda g x b) (segment n lamda g a x)) (segment n lamda g a b) := by
  have hx : segment n lamda g x b = expm n fun i j => -((b - x) * lamda) * g a i j := by
    unfold segment
    apply expm_congr
    intro i hi j hj
    show _ * g x i j = _
    rw [hg i hi j hj]
  have h1 : ∀ c d : ℝ, c + d = -((b - a) * lamda) →
      EqOn n (expm n fun i j => (c + d) * g a i j) (segment n lamda g a b) := by
    intro c d h
    rw [h]
    exact EqOn.refl _ _
  rw [hx]
  exact ⟨(expm_mul n (g a) _ _).trans (h1 _ _ (by ring)), (expm_mul n (g a) _ _).trans (h1 _ _ (by ring))⟩

theorem prod_append_list {K : Type} [Field K] [LinearOrder K] [IsStrictOrderedRing K] (n : Nat)
    (l m : List (Mat K)) : EqOn n (prod n (l ++ m)) (mul n (prod n l) (prod n m)) := by
  induction l with
  | nil => exact (eye_mul _).symm
  | cons A l ih =>
    show EqOn n (mul n A (prod n (l ++ m))) (mul n (mul n A (prod n l)) (prod n m))
    rw [mul_assoc']
    exact mul_congr (EqOn.refl _ _) ih

theorem prod_congr {K : Type} [Field K] [LinearOrder K] [IsStrictOrderedRing K] {n : Nat}
    {l m : List (Mat K)} (h : List.Forall₂ (EqOn n) l m) : EqOn n (prod n l) (prod n m) := by
  induction h with
  | nil => exact EqOn.refl _ _
  | cons h _ ih => exact mul_congr h ih

theorem segments_append (n : Nat) (lamda : ℝ) (g : ℝ → Mat ℝ) : ∀ (l : List ℝ) (y : ℝ) (r : List ℝ),
    segments n lamda g (l ++ y :: r) = segments n lamda g (l ++ [y]) ++ segments n lamda g (y :: r)
  | [], y, r => by simp [segments]
  | [a], y, r => by simp [segments]
  | a :: b :: l, y, r => by
    have := segments_append n lamda g (b :: l) y r
    simp only [List.cons_append] at this ⊢
    simp only [segments, List.cons_append, this]

theorem frozen_append (n : Nat) (g : ℝ → Mat ℝ) : ∀ (l : List ℝ) (y : ℝ) (r : List ℝ),
    Frozen n g (l ++ y :: r) ↔ Frozen n g (l ++ [y]) ∧ Frozen n g (y :: r)
  | [], y, r => by simp [Frozen]
  | [a], y, r => by simp [Frozen]
  | a :: b :: l, y, r => by
    have := frozen_append n g (b :: l) y r
    simp only [List.cons_append] at this ⊢
    simp only [Frozen, this, and_assoc]

/-- Ordered product of the propagators of a grid. -/
noncomputable def evolve (n : Nat) (lamda : ℝ) (g : ℝ → Mat ℝ) (reverse : Bool) (ts : List ℝ) : Mat ℝ :=
  prod n (ordered reverse (segments n lamda g ts))

theorem ordered_append (reverse : Bool) (l m : List (Mat ℝ)) (n : Nat) :
    EqOn n (prod n (ordered reverse (l ++ m)))
      (if reverse then mul n (prod n (ordered reverse m)) (prod n (ordered reverse l))
       else mul n (prod n (ordered reverse l)) (prod n (ordered reverse m))) := by
  cases reverse
  · exact prod_append_list n l m
  · simp only [ordered, if_true, List.reverse_append]
    exact prod_append_list n _ _

/-- One more point in the grid makes no difference. -/
theorem evolve_insert {n : Nat} {lamda : ℝ} {g : ℝ → Mat ℝ} (reverse : Bool) {l r : List ℝ} {y x z : ℝ}
    (hf : Frozen n g (l ++ y :: z :: r)) (h1 : y < x) (h2 : x < z) :
    EqOn n (evolve n lamda g reverse (l ++ y :: x :: z :: r)) (evolve n lamda g reverse (l ++ y :: z :: r)) ∧
    Frozen n g (l ++ y :: x :: z :: r) := by
  rw [frozen_append] at hf
  obtain ⟨f1, f2, f3⟩ := hf
  have hgx := f2 x h1.le h2
  constructor
  · have key : ∀ (rev : Bool), EqOn n
        (prod n (ordered rev (segments n lamda g (y :: x :: z :: r))))
        (prod n (ordered rev (segments n lamda g (y :: z :: r)))) := by
      intro rev
      have e1 : segments n lamda g (y :: x :: z :: r) =
          [segment n lamda g y x, segment n lamda g x z] ++ segments n lamda g (z :: r) := rfl
      have e2 : segments n lamda g (y :: z :: r) = [segment n lamda g y z] ++ segments n lamda g (z :: r) := rfl
      rw [e1, e2]
      refine (ordered_append rev _ _ n).trans (EqOn.trans ?_ (ordered_append rev _ _ n).symm)
      have hp : EqOn n (prod n (ordered rev [segment n lamda g y x, segment n lamda g x z]))
          (prod n (ordered rev [segment n lamda g y z])) := by
        cases rev
        · show EqOn n (mul n _ (mul n _ eye)) (mul n _ eye)
          exact ((mul_congr (EqOn.refl _ _) (mul_eye _)).trans (segment_split hgx).1).trans (mul_eye _).symm
        · show EqOn n (mul n _ (mul n _ eye)) (mul n _ eye)
          exact ((mul_congr (EqOn.refl _ _) (mul_eye _)).trans (segment_split hgx).2).trans (mul_eye _).symm
      cases rev
      · exact mul_congr hp (EqOn.refl _ _)
      · exact mul_congr (EqOn.refl _ _) hp
    unfold evolve
    rw [segments_append, segments_append n lamda g l y (z :: r)]
    refine (ordered_append reverse _ _ n).trans (EqOn.trans ?_ (ordered_append reverse _ _ n).symm)
    cases reverse
    · exact mul_congr (EqOn.refl _ _) (key false)
    · exact mul_congr (key true) (EqOn.refl _ _)
  · rw [frozen_append]
    refine ⟨f1, ?_, ?_, f3⟩
    · intro u hu1 hu2
      exact f2 u hu1 (hu2.trans h2)
    · intro u hu1 hu2
      exact (f2 u (h1.le.trans hu1) hu2).trans hgx.symm

theorem split_between {ts : List ℝ} (hs : ts.Pairwise (· < ·)) {a b x : ℝ} (ha : a ∈ ts) (hb : b ∈ ts)
    (hax : a < x) (hxb : x < b) (hx : x ∉ ts) : ∃ l y z r, ts = l ++ y :: z :: r ∧ y < x ∧ x < z := by
  induction ts generalizing a with
  | nil => cases ha
  | cons c ts ih =>
    rw [List.pairwise_cons] at hs
    have hcx : c < x := by
      rcases List.mem_cons.1 ha with rfl | ha
      · exact hax
      · exact (hs.1 a ha).trans hax
    cases ts with
    | nil =>
      simp only [List.mem_singleton] at hb
      subst hb
      exact absurd (hcx.trans hxb) (lt_irrefl _)
    | cons d ts =>
      by_cases hdx : x < d
      · exact ⟨[], c, d, ts, rfl, hcx, hdx⟩
      · have hdx' : d < x := lt_of_le_of_ne (not_lt.1 hdx) fun h => hx (by simp [h])
        have hb' : b ∈ d :: ts := by
          rcases List.mem_cons.1 hb with rfl | hb
          · exact absurd (hcx.trans hxb) (lt_irrefl _)
          · exact hb
        obtain ⟨l, y, z, r, e, h1, h2⟩ := ih hs.2 (a := d) (by simp) hb' hdx'
          (fun hc => hx (List.mem_cons_of_mem _ hc))
        exact ⟨c :: l, y, z, r, by rw [e]; rfl, h1, h2⟩

/-- Points between two points of the grid can be added. -/
theorem evolve_refine {n : Nat} {lamda : ℝ} {g : ℝ → Mat ℝ} (reverse : Bool) {a b : ℝ} :
    ∀ (xs : List ℝ) (ts : List ℝ), ts.Pairwise (· < ·) → Frozen n g ts → a ∈ ts → b ∈ ts →
      (∀ x ∈ xs, a ≤ x ∧ x ≤ b) → ∃ us : List ℝ, us.Pairwise (· < ·) ∧ (∀ x, x ∈ us ↔ x ∈ ts ∨ x ∈ xs) ∧
        EqOn n (evolve n lamda g reverse us) (evolve n lamda g reverse ts)
  | [], ts, hs, _, _, _, _ => ⟨ts, hs, by simp, EqOn.refl _ _⟩
  | x :: xs, ts, hs, hf, ha, hb, hx => by
    by_cases hm : x ∈ ts
    · obtain ⟨us, h1, h2, h3⟩ := evolve_refine reverse xs ts hs hf ha hb fun y hy => hx y (by simp [hy])
      refine ⟨us, h1, fun y => ?_, h3⟩
      rw [h2 y, List.mem_cons]
      constructor
      · rintro (h | h)
        · exact .inl h
        · exact .inr (.inr h)
      · rintro (h | rfl | h)
        · exact .inl h
        · exact .inl hm
        · exact .inr h
    · have hxx := hx x (by simp)
      have hax : a < x := lt_of_le_of_ne hxx.1 fun h => hm (h ▸ ha)
      have hxb : x < b := lt_of_le_of_ne hxx.2 fun h => hm (h ▸ hb)
      obtain ⟨l, y, z, r, rfl, hy, hz⟩ := split_between hs ha hb hax hxb hm
      obtain ⟨e1, e2⟩ := evolve_insert (lamda := lamda) reverse hf hy hz
      have hs' : (l ++ y :: x :: z :: r).Pairwise (· < ·) := by
        rw [List.pairwise_append] at hs ⊢
        obtain ⟨p1, p2, p3⟩ := hs
        rw [List.pairwise_cons, List.pairwise_cons] at p2
        refine ⟨p1, ?_, ?_⟩
        · rw [List.pairwise_cons, List.pairwise_cons, List.pairwise_cons]
          refine ⟨?_, ?_, p2.2.1, p2.2.2⟩
          · intro w hw
            rcases List.mem_cons.1 hw with rfl | hw
            · exact hy
            · exact p2.1 w hw
          · intro w hw
            rcases List.mem_cons.1 hw with rfl | hw
            · exact hz
            · exact hz.trans (p2.2.1 w hw)
        · intro v hv w hw
          rcases List.mem_cons.1 hw with rfl | hw
          · exact p3 v hv _ (by simp)
          · rcases List.mem_cons.1 hw with rfl | hw
            · exact (p3 v hv y (by simp)).trans hy
            · exact p3 v hv w (by simp [hw])
      have hmem : ∀ w, w ∈ l ++ y :: z :: r → w ∈ l ++ y :: x :: z :: r := by
        intro w hw
        simp only [List.mem_append, List.mem_cons] at hw ⊢
        tauto
      obtain ⟨us, h1, h2, h3⟩ := evolve_refine reverse xs _ hs' e2 (hmem a ha) (hmem b hb)
        fun y hy => hx y (by simp [hy])
      refine ⟨us, h1, fun w => ?_, h3.trans e1⟩
      rw [h2 w]
      simp only [List.mem_append, List.mem_cons]
      tauto

theorem sorted_ext {us vs : List ℝ} (hu : us.Pairwise (· < ·)) (hv : vs.Pairwise (· < ·))
    (h : ∀ x, x ∈ us ↔ x ∈ vs) : us = vs := by
  have hp : us.Perm vs := by
    rw [List.perm_ext_iff_of_nodup (hu.imp fun h => ne_of_lt h) (hv.imp fun h => ne_of_lt h)]
    exact h
  exact hp.eq_of_pairwise (fun a b _ _ h1 h2 => absurd (h1.trans h2) (lt_irrefl _)) hu hv

/-- Two grids over the same interval, in each of which the generator is frozen, give the same
evolution. -/
theorem evolve_unique {n : Nat} {lamda : ℝ} {g : ℝ → Mat ℝ} (reverse : Bool) {a b : ℝ} {ts us : List ℝ}
    (ht : ts.Pairwise (· < ·)) (hu : us.Pairwise (· < ·)) (hft : Frozen n g ts) (hfu : Frozen n g us)
    (hat : a ∈ ts) (hbt : b ∈ ts) (hau : a ∈ us) (hbu : b ∈ us)
    (hrt : ∀ x ∈ ts, a ≤ x ∧ x ≤ b) (hru : ∀ x ∈ us, a ≤ x ∧ x ≤ b) :
    EqOn n (evolve n lamda g reverse ts) (evolve n lamda g reverse us) := by
  obtain ⟨v, h1, h2, h3⟩ := evolve_refine (lamda := lamda) reverse us ts ht hft hat hbt hru
  obtain ⟨w, k1, k2, k3⟩ := evolve_refine (lamda := lamda) reverse ts us hu hfu hau hbu hrt
  have : v = w := sorted_ext h1 k1 fun x => by rw [h2, k2]; tauto
  subst this
  exact h3.symm.trans k3

/-! ## The matrices of a network -/

/-- Random-walk Laplacian of the contacts active at a time. -/
noncomputable def generator (n : Nat) (evs : List (Event Nat ℝ)) (t : ℝ) : Mat ℝ :=
  walkLaplacian n (Active evs t)

/-- **C59** (each interval).  The `i`-th inter-event matrix is the exponential of the
random-walk Laplacian of the contacts active in the `i`-th interval of the window, times minus
the rate and the length of the interval, or minus the rate when the lengths are fixed to one. -/
theorem C59_inter_event {n : Nat} {evs : List (Event Nat ℝ)} (h : Proper n evs) (hne : evs ≠ [])
    (sf : Nat → Bool) (tStart tStop : Option ℝ) :
    ∃ L, computeLaplacians n evs sf tStart tStop = .ok L ∧ L.kStop < (timesOf evs).length ∧
      ∀ (lamda : ℝ) (fixTau : Bool), L.kStart < L.kStop →
        (interMats n (expm n) (timesOf evs) L lamda fixTau).length = L.kStop - L.kStart ∧
        ∀ (i : Nat) (hi : i < (interMats n (expm n) (timesOf evs) L lamda fixTau).length)
          (hk : L.kStart + i + 1 < (timesOf evs).length) (u : ℝ),
          (timesOf evs)[L.kStart + i] ≤ u → u < (timesOf evs)[L.kStart + i + 1] →
          EqOn n (interMats n (expm n) (timesOf evs) L lamda fixTau)[i]
            (expm n fun a b => -((if fixTau then 1 else
              (timesOf evs)[L.kStart + i + 1] - (timesOf evs)[L.kStart + i]) * lamda) *
                walkLaplacian n (Active evs u) a b) := by
  obtain ⟨L, hL, -, -, hlen, hlap⟩ := C33_active_contacts_partial h hne sf tStart tStop
  obtain ⟨k, m, hk, hm, s, -, -, -, heq⟩ := computeLaplacians_eq h.inRange h.noLoops hne sf tStart tStop
  have hkm : L.kStart = k ∧ L.kStop = m := by
    rw [hL] at heq
    split at heq
    · cases heq
    · cases heq; exact ⟨rfl, rfl⟩
  refine ⟨L, hL, by omega, fun lamda fixTau hlt => ?_⟩
  have hl2 : (((timesOf evs).take L.kStop).drop L.kStart).length = L.kStop - L.kStart := by
    simp only [List.length_drop, List.length_take]; omega
  have hlen2 : (interMats n (expm n) (timesOf evs) L lamda fixTau).length = L.kStop - L.kStart := by
    rw [interMats_length, hl2, if_neg (by omega)]
  refine ⟨hlen2, ?_⟩
  intro i hi hki u hu1 hu2
  have hi2 : i < L.laplacians.length := by omega
  have hform : interMats n (expm n) (timesOf evs) L lamda fixTau =
      (((timesOf evs).take L.kStop).drop L.kStart).zipIdx.map fun (tk, k) =>
        interMat n (expm n) lamda fixTau (L.laplacians.getD k eye) tk
          ((timesOf evs).getD (L.kStart + k + 1) 0) := by
    unfold interMats
    dsimp only
    rw [if_neg]
    simp only [List.length_map, List.length_zipIdx, hl2]
    omega
  have hval : (interMats n (expm n) (timesOf evs) L lamda fixTau)[i] =
      interMat n (expm n) lamda fixTau L.laplacians[i] (timesOf evs)[L.kStart + i]
        (timesOf evs)[L.kStart + i + 1] := by
    simp only [hform, List.getElem_map, List.getElem_zipIdx, List.getElem_drop, List.getElem_take, Nat.zero_add]
    rw [getD_getElem _ _ hi2, getD_getElem _ _ hki]
  rw [hval]
  refine (interMat_eq n lamda fixTau _ _ _).trans ?_
  have : (fun a b => -((if fixTau then 1 else
      (timesOf evs)[L.kStart + i + 1] - (timesOf evs)[L.kStart + i]) * lamda) * L.laplacians[i] a b) =
      fun a b => -((if fixTau then 1 else
      (timesOf evs)[L.kStart + i + 1] - (timesOf evs)[L.kStart + i]) * lamda) *
        walkLaplacian n (Active evs u) a b := by
    funext a b
    rw [hlap i hi2 hki u hu1 hu2 a b]
  rw [this]
  exact EqOn.refl _ _

theorem segments_length (n : Nat) (lamda : ℝ) (g : ℝ → Mat ℝ) : ∀ ts : List ℝ,
    (segments n lamda g ts).length = ts.length - 1
  | [] => rfl
  | [_] => rfl
  | a :: b :: r => by
    have := segments_length n lamda g (b :: r)
    simp only [segments, List.length_cons] at this ⊢
    omega

theorem segments_getElem (n : Nat) (lamda : ℝ) (g : ℝ → Mat ℝ) : ∀ (ts : List ℝ) (i : Nat)
    (hi : i < (segments n lamda g ts).length) (h1 : i + 1 < ts.length),
    (segments n lamda g ts)[i] = segment n lamda g ts[i] ts[i + 1]
  | a :: b :: r, 0, _, _ => rfl
  | a :: b :: r, i + 1, hi, h1 => by
    have := segments_getElem n lamda g (b :: r) i (by simpa [segments] using hi) (by simpa using h1)
    simpa [segments] using this
  | [_], i, hi, h1 => by simp at h1
  | [], i, hi, h1 => by simp at h1

theorem frozen_of_getElem (n : Nat) (g : ℝ → Mat ℝ) : ∀ (ts : List ℝ),
    (∀ (i : Nat) (h : i + 1 < ts.length) (u : ℝ), ts[i] ≤ u → u < ts[i + 1] → EqOn n (g u) (g ts[i])) →
    Frozen n g ts
  | [], _ => trivial
  | [_], _ => trivial
  | a :: b :: r, h => by
    refine ⟨fun u h1 h2 => h 0 (by simp) u h1 h2, frozen_of_getElem n g (b :: r) ?_⟩
    intro i hi u h1 h2
    exact h (i + 1) (by simpa using hi) u h1 h2

theorem walkLaplacian_congr {n : Nat} {G H : Nat → Nat → Prop} (h : ∀ i j, G i j ↔ H i j) :
    (walkLaplacian n G : Mat ℝ) = walkLaplacian n H := by
  have : G = H := by funext i j; exact propext (h i j)
  rw [this]

theorem eqOn_forall2 {n : Nat} {l m : List (Mat ℝ)} (hl : l.length = m.length)
    (h : ∀ (i : Nat) (h1 : i < l.length) (h2 : i < m.length), EqOn n l[i] m[i]) :
    List.Forall₂ (EqOn n) l m := by
  rw [List.forall₂_iff_get]
  exact ⟨hl, fun i h1 h2 => h i h1 h2⟩

/-- Grid of a window. -/
def grid (times : List ℝ) (k m : Nat) : List ℝ := (times.take (m + 1)).drop k

/-- The last cumulative matrix is the evolution of the generator over the grid of the window. -/
theorem cumulativeLast_evolve {n : Nat} {evs : List (Event Nat ℝ)} (h : Proper n evs) (hne : evs ≠ [])
    (sf : Nat → Bool) (tStart tStop : Option ℝ) {L : Laps ℝ}
    (hL : computeLaplacians n evs sf tStart tStop = .ok L) {lamda : ℝ} (hl : 0 ≤ lamda) (reverse : Bool)
    (hlt : L.kStart < L.kStop) (g : ℝ → Mat ℝ)
    (hg : ∀ u, L.tStart ≤ u → u < L.tStop → EqOn n (g u) (generator n evs u)) :
    EqOn n (cumulativeLast n reverse none (interMats n (expm n) (timesOf evs) L lamda false))
      (evolve n lamda g reverse (grid (timesOf evs) L.kStart L.kStop)) ∧
    (grid (timesOf evs) L.kStart L.kStop).Pairwise (· < ·) ∧
    Frozen n g (grid (timesOf evs) L.kStart L.kStop) ∧
    L.tStart ∈ grid (timesOf evs) L.kStart L.kStop ∧ L.tStop ∈ grid (timesOf evs) L.kStart L.kStop ∧
    ∀ x ∈ grid (timesOf evs) L.kStart L.kStop, L.tStart ≤ x ∧ x ≤ L.tStop := by
  have hsorted : (timesOf evs).Pairwise (· < ·) := uniqueSorted_lt _
  obtain ⟨L1, hL1, hk1, hinter⟩ := C59_inter_event h hne sf tStart tStop
  obtain ⟨L2, hL2, hsto⟩ := C34_transition_stochastic h.inRange h.noLoops hne sf tStart tStop
  obtain ⟨L3, hL3, -, -, hlen3, hlap⟩ := C33_active_contacts_partial h hne sf tStart tStop
  obtain ⟨k, m, hk, hm, s, -, -, -, heq⟩ := computeLaplacians_eq h.inRange h.noLoops hne sf tStart tStop
  rw [hL] at hL1 hL2 hL3
  cases hL1; cases hL2; cases hL3
  have hkm : L.kStart = k ∧ L.kStop = m ∧ L.tStart = (timesOf evs)[k] ∧ L.tStop = (timesOf evs)[m] := by
    rw [hL] at heq
    split at heq
    · cases heq
    · cases heq; exact ⟨rfl, rfl, rfl, rfl⟩
  obtain ⟨e1, e2, e3, e4⟩ := hkm
  subst e1; subst e2
  have hglen : (grid (timesOf evs) L.kStart L.kStop).length = L.kStop + 1 - L.kStart := by
    simp only [grid, List.length_drop, List.length_take]; omega
  have hget : ∀ (i : Nat) (hi : i < (grid (timesOf evs) L.kStart L.kStop).length),
      (grid (timesOf evs) L.kStart L.kStop)[i] = (timesOf evs)[L.kStart + i]'(by omega) := by
    intro i hi
    simp only [grid, List.getElem_drop, List.getElem_take]
  have hgs : (grid (timesOf evs) L.kStart L.kStop).Pairwise (· < ·) :=
    (hsorted.sublist (List.take_sublist _ _)).sublist (List.drop_sublist _ _)
  have hmono := List.pairwise_iff_getElem.1 hsorted
  have hmem : ∀ x ∈ grid (timesOf evs) L.kStart L.kStop, L.tStart ≤ x ∧ x ≤ L.tStop := by
    intro x hx
    obtain ⟨i, hi, rfl⟩ := List.getElem_of_mem hx
    rw [hget i hi, e3, e4]
    constructor
    · rcases Nat.eq_zero_or_pos i with rfl | hp
      · exact le_rfl
      · exact (hmono _ _ (by omega) (by omega) (by omega)).le
    · rcases Nat.lt_or_ge (L.kStart + i) L.kStop with h | h
      · exact (hmono _ _ (by omega) (by omega) h).le
      · have : L.kStart + i = L.kStop := by omega
        simp only [this]
        exact le_rfl
  have hgen : ∀ (i : Nat) (hi : L.kStart + i < L.kStop) (u : ℝ), (timesOf evs)[L.kStart + i] ≤ u →
      u < (timesOf evs)[L.kStart + i + 1] → L.tStart ≤ u ∧ u < L.tStop := by
    intro i hi u h1 h2
    have m1 := hmem ((timesOf evs)[L.kStart + i]) (by
      rw [← hget i (by omega)]; exact List.getElem_mem _)
    have m2 := hmem ((timesOf evs)[L.kStart + i + 1]) (by
      have := hget (i + 1) (by omega)
      rw [show (timesOf evs)[L.kStart + i + 1] = (grid (timesOf evs) L.kStart L.kStop)[i + 1]'(by omega) from
        this.symm]
      exact List.getElem_mem _)
    exact ⟨m1.1.trans h1, lt_of_lt_of_le h2 m2.2⟩
  have hconst : ∀ (i : Nat) (hi : L.kStart + i < L.kStop) (u : ℝ), (timesOf evs)[L.kStart + i] ≤ u →
      u < (timesOf evs)[L.kStart + i + 1] →
      EqOn n (generator n evs u) (L.laplacians[i]'(by omega)) := by
    intro i hi u h1 h2 a _ b _
    exact (hlap i (by omega) (by omega) u h1 h2 a b).symm
  refine ⟨?_, hgs, ?_, ?_, ?_, hmem⟩
  · obtain ⟨hne2, hst⟩ := hsto lamda false hl
    obtain ⟨hil, hival⟩ := hinter lamda false hlt
    have hC := C38_products hne2 hst reverse
    have hlast := C38_last_only n (interMats n (expm n) (timesOf evs) L lamda false) hne2 reverse none
    have hcl : (cumulative n reverse none (interMats n (expm n) (timesOf evs) L lamda false)).length =
        L.kStop - L.kStart := by rw [hC.1, hil]
    have hprod : EqOn n (cumulativeLast n reverse none (interMats n (expm n) (timesOf evs) L lamda false))
        (prod n (ordered reverse (interMats n (expm n) (timesOf evs) L lamda false))) := by
      rw [List.getLast?_eq_getElem?, hcl] at hlast
      obtain ⟨hh, hv⟩ := List.getElem?_eq_some_iff.1 hlast
      have := (hC.2 (L.kStop - L.kStart - 1) hh).1
      rw [hv] at this
      refine this.trans ?_
      have hol : (ordered reverse (interMats n (expm n) (timesOf evs) L lamda false)).length =
          L.kStop - L.kStart := by
        unfold ordered; split <;> simp [hil]
      have : (if reverse then (interMats n (expm n) (timesOf evs) L lamda false).reverse
          else interMats n (expm n) (timesOf evs) L lamda false).take (L.kStop - L.kStart - 1 + 1) =
          ordered reverse (interMats n (expm n) (timesOf evs) L lamda false) := by
        apply List.take_of_length_le
        unfold ordered at hol
        rw [hol]; omega
      rw [this]
      exact EqOn.refl _ _
    refine hprod.trans ?_
    unfold evolve
    apply prod_congr
    have hfa : List.Forall₂ (EqOn n) (interMats n (expm n) (timesOf evs) L lamda false)
        (segments n lamda g (grid (timesOf evs) L.kStart L.kStop)) := by
      apply eqOn_forall2
      · rw [hil, segments_length, hglen]; omega
      · intro i h1 h2
        have hi : i < L.kStop - L.kStart := by rw [← hil]; exact h1
        have hlt' : (timesOf evs)[L.kStart + i] < (timesOf evs)[L.kStart + i + 1] :=
          hmono _ _ (by omega) (by omega) (by omega)
        refine (hival i h1 (by omega) _ le_rfl hlt').trans ?_
        rw [segments_getElem n lamda g _ i h2 (by omega)]
        unfold segment
        rw [hget i (by omega), hget (i + 1) (by omega)]
        have hr := hgen i (by omega) _ le_rfl hlt'
        have hgg := hg _ hr.1 hr.2
        have : (expm n fun a b => -((if false = true then 1 else
              (timesOf evs)[L.kStart + i + 1] - (timesOf evs)[L.kStart + i]) * lamda) *
                walkLaplacian n (Active evs (timesOf evs)[L.kStart + i]) a b) =
            expm n fun a b => -((if false = true then 1 else
              (timesOf evs)[L.kStart + i + 1] - (timesOf evs)[L.kStart + i]) * lamda) *
                g (timesOf evs)[L.kStart + i] a b := by
          apply expm_congr
          intro a ha b hb
          show _ * _ = _ * _
          rw [hgg a ha b hb]; rfl
        rw [this]
        simp only [Bool.false_eq_true, if_false]
        exact EqOn.refl _ _
    cases reverse
    · exact hfa
    · exact (List.rel_reverse hfa)
  · apply frozen_of_getElem
    intro i hi u h1 h2
    rw [hget i (by omega)] at h1 ⊢
    rw [hget (i + 1) hi] at h2
    have hlt' : (timesOf evs)[L.kStart + i] < (timesOf evs)[L.kStart + i + 1] :=
      hmono _ _ (by omega) (by omega) (by omega)
    have r1 := hgen i (by omega) u h1 h2
    have r2 := hgen i (by omega) _ le_rfl hlt'
    exact ((hg u r1.1 r1.2).trans (hconst i (by omega) u h1 h2)).trans
      ((hg _ r2.1 r2.2).trans (hconst i (by omega) _ le_rfl hlt')).symm
  · rw [e3]
    have := hget 0 (by omega)
    rw [show (timesOf evs)[L.kStart] = (grid (timesOf evs) L.kStart L.kStop)[0]'(by omega) from this.symm]
    exact List.getElem_mem _
  · rw [e4]
    have := hget (L.kStop - L.kStart) (by omega)
    simp only [show L.kStart + (L.kStop - L.kStart) = L.kStop by omega] at this
    rw [← this]
    exact List.getElem_mem _

/-- **C59** (whole window).  Two tables of contacts whose windows start and end at the same
times, and which have the same contacts active at every moment of the window, give the same
transition matrix over the window, in both time directions: how contacts are cut into events
makes no difference. -/
theorem C59_only_contacts_matter {n : Nat} {evs evs' : List (Event Nat ℝ)} (h : Proper n evs)
    (h' : Proper n evs') (hne : evs ≠ []) (hne' : evs' ≠ []) (sf sf' : Nat → Bool)
    {tStart tStop tStart' tStop' : Option ℝ} {L L' : Laps ℝ}
    (hL : computeLaplacians n evs sf tStart tStop = .ok L)
    (hL' : computeLaplacians n evs' sf' tStart' tStop' = .ok L')
    (hs : L.tStart = L'.tStart) (ht : L.tStop = L'.tStop)
    (hact : ∀ u, L.tStart ≤ u → u < L.tStop → ∀ i j, Active evs u i j ↔ Active evs' u i j)
    {lamda : ℝ} (hl : 0 ≤ lamda) (reverse : Bool) :
    EqOn n (cumulativeLast n reverse none (interMats n (expm n) (timesOf evs) L lamda false))
      (cumulativeLast n reverse none (interMats n (expm n) (timesOf evs') L' lamda false)) := by
  have hidx : ∀ {evs : List (Event Nat ℝ)} (_ : Proper n evs) (_ : evs ≠ []) (sf : Nat → Bool)
      {a b : Option ℝ} {L : Laps ℝ}, computeLaplacians n evs sf a b = .ok L →
      (L.kStart < L.kStop ↔ L.tStart < L.tStop) := by
    intro evs h hne sf a b L hL
    have hsorted : (timesOf evs).Pairwise (· < ·) := uniqueSorted_lt _
    have hmono := List.pairwise_iff_getElem.1 hsorted
    obtain ⟨k, m, hk, hm, s, -, -, -, heq⟩ := computeLaplacians_eq h.inRange h.noLoops hne sf a b
    rw [hL] at heq
    split at heq
    · cases heq
    · cases heq
      constructor
      · intro hc; exact hmono _ _ _ _ hc
      · intro hc
        by_contra hcon
        rcases Nat.lt_or_ge m k with hlt | hge
        · exact absurd (hc.trans (hmono m k hm hk hlt)) (lt_irrefl _)
        · have : k = m := by
            simp only at hcon
            omega
          subst this
          exact lt_irrefl _ hc
  by_cases hlt : L.kStart < L.kStop
  · have hlt' : L'.kStart < L'.kStop := by
      rw [hidx h' hne' sf' hL', ← hs, ← ht]
      exact (hidx h hne sf hL).1 hlt
    obtain ⟨a1, a2, a3, a4, a5, a6⟩ := cumulativeLast_evolve h hne sf tStart tStop hL hl reverse hlt
      (generator n evs) fun u _ _ => EqOn.refl _ _
    obtain ⟨b1, b2, b3, b4, b5, b6⟩ := cumulativeLast_evolve h' hne' sf' tStart' tStop' hL' hl reverse hlt'
      (generator n evs) fun u h1 h2 => by
        unfold generator
        rw [walkLaplacian_congr (hact u (hs ▸ h1) (ht ▸ h2))]
        exact EqOn.refl _ _
    rw [← hs] at b4 b6
    rw [← ht] at b5 b6
    exact a1.trans ((evolve_unique reverse a2 b2 a3 b3 a4 a5 b4 b5 a6 b6).trans b1.symm)
  · have hlt' : ¬ L'.kStart < L'.kStop := by
      rw [hidx h' hne' sf' hL', ← hs, ← ht]
      exact fun hc => hlt ((hidx h hne sf hL).2 hc)
    have hempty : ∀ {times : List ℝ} {L : Laps ℝ}, ¬ L.kStart < L.kStop →
        interMats n (expm n) times L lamda false = [eye] := by
      intro times L hc
      unfold interMats
      have : (times.take L.kStop).drop L.kStart = [] := by
        rw [List.drop_eq_nil_iff, List.length_take]; omega
      simp [this]
    rw [hempty hlt, hempty hlt']
    exact EqOn.refl _ _

/-- One contact from 0 to 2, or cut into two events. -/
example : Proper 2 ([⟨0, 1, 0, 2⟩] : List (Event Nat ℝ)) ∧
    Proper 2 ([⟨0, 1, 0, 1⟩, ⟨1, 0, 1, 2⟩] : List (Event Nat ℝ)) ∧
    ∀ u, (0 : ℝ) ≤ u → u < 2 → ∀ i j, Active ([⟨0, 1, 0, 2⟩] : List (Event Nat ℝ)) u i j ↔
      Active ([⟨0, 1, 0, 1⟩, ⟨1, 0, 1, 2⟩] : List (Event Nat ℝ)) u i j := by
  refine ⟨⟨?_, ?_, ?_, ?_⟩, ⟨?_, ?_, ?_, ?_⟩, ?_⟩
  · intro e he; simp at he; subst he; simp
  · intro e he; simp at he; subst he; simp
  · intro e he; simp at he; subst he; simp
  · unfold Separate; simp
  · intro e he; simp at he; rcases he with rfl | rfl <;> simp
  · intro e he; simp at he; rcases he with rfl | rfl <;> simp
  · intro e he; simp at he; rcases he with rfl | rfl <;> norm_num
  · unfold Separate; simp
  · intro u h0 h2 i j
    unfold Active Event.Pair
    simp only [List.mem_cons, List.not_mem_nil, or_false, exists_eq_or_imp, exists_eq_left]
    constructor
    · rintro ⟨h, _, _⟩
      rcases lt_or_ge u 1 with h1 | h1
      · exact .inl ⟨h, h0, h1⟩
      · exact .inr ⟨h.symm.imp (fun h => ⟨h.2, h.1⟩) (fun h => ⟨h.2, h.1⟩), h1, h2⟩
    · rintro (⟨h, _, _⟩ | ⟨h, _, _⟩)
      · exact ⟨h, h0, h2⟩
      · exact ⟨h.symm.imp (fun h => ⟨h.2, h.1⟩) (fun h => ⟨h.2, h.1⟩), h0, h2⟩

end Verif.Trans
