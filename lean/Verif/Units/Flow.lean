import Verif.Units.Rates
import Verif.Flow.Model
import Mathlib.Algebra.BigOperators.Ring.Finset

/-!
# The flow integral in another unit of time
-/

set_option linter.unusedSectionVars false

namespace Verif.Units

open Verif.TempNet Verif.Trans Verif.Autocov Verif.Flow

variable {K : Type} [Field K] [LinearOrder K] [IsStrictOrderedRing K]

/-- The arguments of `FlowIntegralClustering` in another unit of time. -/
def Input.clock (c s : K) (inp : Input K) : Input K :=
  { inp with
    times := inp.times.map (List.map (affine c s))
    grid := inp.grid.map (List.map (affine c s)) }

/-- The object in another unit of time. -/
def Obj.clock (c s : K) (o : Obj K) : Obj K :=
  { o with timeList := o.timeList.map (affine c s), tGrid := o.tGrid.map (affine c s) }

theorem sum_map_scale (c : K) (l : List K) : (l.map fun d => c * d).sum = c * l.sum := by
  induction l with
  | nil => simp
  | cons a l ih => rw [List.map_cons, List.sum_cons, List.sum_cons, ih]; ring

theorem turnGrid_clock {c : K} (hc : 0 < c) (s : K) (rev : Bool) (g : List K) :
    turnGrid rev (g.map (affine c s)) = (turnGrid rev g).map (affine c s) := by
  unfold turnGrid
  simp only [gaps_affine, sum_map_scale]
  have h1 : (0 < c * (gaps g).sum) = (0 < (gaps g).sum) := by
    rw [mul_pos_iff_of_pos_left hc]
  have h2 : (c * (gaps g).sum < 0) = ((gaps g).sum < 0) := by
    rw [← not_le, ← not_le, mul_nonneg_iff_of_pos_left hc]
  simp only [h1, h2]
  split
  · rw [List.map_reverse]
  · split
    · rw [List.map_reverse]
    · rfl

theorem max?_map {φ : K → K} (hφ : StrictMono φ) (l : List K) : (l.map φ).max? = l.max?.map φ := by
  cases l with
  | nil => rfl
  | cons a l =>
    rw [List.map_cons, List.max?_cons', List.max?_cons', Option.map_some, foldl_max_map hφ]

theorem foldl_min_map {φ : K → K} (hφ : StrictMono φ) (l : List K) (a : K) :
    (l.map φ).foldl min (φ a) = φ (l.foldl min a) := by
  induction l generalizing a with
  | nil => rfl
  | cons b l ih => rw [List.map_cons, List.foldl_cons, List.foldl_cons, ← hφ.monotone.map_min, ih]

theorem min?_map {φ : K → K} (hφ : StrictMono φ) (l : List K) : (l.map φ).min? = l.min?.map φ := by
  cases l with
  | nil => rfl
  | cons a l =>
    rw [List.map_cons, List.min?_cons', List.min?_cons', Option.map_some, foldl_min_map hφ]

theorem gridTime_map {φ : K → K} (hφ : StrictMono φ) (rev : Bool) (ts : List K) (t0 t : K) :
    gridTime rev (ts.map φ) (φ t0) (φ t) = (gridTime rev ts t0 t).map φ := by
  unfold gridTime
  have hmem : φ t ∈ ts.map φ ↔ t ∈ ts := List.mem_map_of_injective hφ.injective
  have f1 : (ts.map φ).filter (fun u => decide (φ t ≤ u)) = (ts.filter fun u => decide (t ≤ u)).map φ := by
    rw [List.filter_map]
    congr 1
    exact List.filter_congr fun u _ => by simp [hφ.le_iff_le]
  have f2 : (ts.map φ).filter (fun u => decide (u ≤ φ t)) = (ts.filter fun u => decide (u ≤ t)).map φ := by
    rw [List.filter_map]
    congr 1
    exact List.filter_congr fun u _ => by simp [hφ.le_iff_le]
  simp only [hmem, hφ.le_iff_le, f1, f2, max?_map hφ, min?_map hφ]
  split
  · rfl
  · split
    · rfl
    · cases rev with
      | true =>
        simp only [if_true]
        cases (ts.filter fun u => decide (t ≤ u)).min? <;> rfl
      | false =>
        simp only [Bool.false_eq_true, if_false]
        cases (ts.filter fun u => decide (u ≤ t)).max? <;> rfl

theorem position_map {φ : K → K} (hφ : StrictMono φ) (ts : List K) (t : K) :
    position (ts.map φ) (φ t) = position ts t := by
  unfold position
  have : (List.range (ts.map φ).length).filter (fun k => decide ((ts.map φ)[k]? = some (φ t))) =
      (List.range ts.length).filter fun k => decide (ts[k]? = some t) := by
    rw [List.length_map]
    refine List.filter_congr fun k _ => ?_
    rw [List.getElem?_map]
    cases ts[k]? with
    | none => simp
    | some a => simp [hφ.injective.eq_iff]
  rw [this]

theorem mapM_map {α : Type} (φ : α → α) (f g : α → Except Flow.Err (Nat × α))
    (h : ∀ a, g (φ a) = (f a).map fun p => (p.1, φ p.2)) (l : List α) :
    (l.map φ).mapM g = (l.mapM f).map fun r => r.map fun p => (p.1, φ p.2) := by
  induction l with
  | nil => rfl
  | cons a l ih =>
    rw [List.map_cons, List.mapM_cons, List.mapM_cons, h, ih]
    cases f a with
    | error e => rfl
    | ok p =>
      cases l.mapM f with
      | error e => rfl
      | ok r => rfl

theorem gridIndices_clock {c : K} (hc : 0 < c) (s : K) (rev : Bool) (ts : List K)
    (g : Option (List K)) :
    gridIndices rev (ts.map (affine c s)) (g.map (List.map (affine c s))) =
      (gridIndices rev ts g).map fun r => r.map fun p => (p.1, affine c s p.2) := by
  have hφ := affine_strictMono hc s
  cases ts with
  | nil => rfl
  | cons t0 rest =>
    cases g with
    | none =>
      simp only [gridIndices, List.map_cons, Option.map_none, Except.map]
      have : (affine c s t0 :: rest.map (affine c s)).getLastD (affine c s t0) =
          affine c s ((t0 :: rest).getLastD t0) := by
        rw [← List.map_cons, List.getLastD_eq_getLast?, List.getLast?_map, List.getLastD_eq_getLast?]
        cases (t0 :: rest).getLast? <;> rfl
      rw [this]
      simp
    | some g =>
      simp only [gridIndices, Option.map_some, List.map_cons, turnGrid_clock hc]
      refine mapM_map (affine c s) _ _ (fun t => ?_) _
      have h1 := gridTime_map hφ rev (t0 :: rest) t0 t
      rw [List.map_cons] at h1
      rw [h1]
      cases gridTime rev (t0 :: rest) t0 t with
      | error e => rfl
      | ok u =>
        simp only [Except.map]
        have h2 := position_map hφ (t0 :: rest) u
        rw [List.map_cons] at h2
        rw [h2]
        cases position (t0 :: rest) u <;> rfl

theorem steps_clock {c : K} (hc : 0 < c) (s : K) (ts : List K) :
    steps (ts.map (affine c s)) = (steps ts).map fun d => c * d := by
  cases ts with
  | nil => rfl
  | cons t0 rest =>
    have hl : (affine c s t0 :: rest.map (affine c s)).getLastD (affine c s t0) =
        affine c s ((t0 :: rest).getLastD t0) := by
      rw [← List.map_cons, List.getLastD_eq_getLast?, List.getLast?_map, List.getLastD_eq_getLast?]
      cases (t0 :: rest).getLast? <;> rfl
    have hg := gaps_affine c s (t0 :: rest)
    rw [List.map_cons] at hg
    simp only [steps, List.map_cons, hl, (affine_strictMono hc s).lt_iff_lt, hg]
    split
    · rw [List.map_map, List.map_map]
      refine List.map_congr_left fun d _ => ?_
      simp only [Function.comp]
      ring
    · rfl

theorem maxAbs_scale {c : K} (hc : 0 < c) (n : Nat) (A : Mat K) :
    maxAbs n (fun i j => c * A i j) = c * maxAbs n A := by
  have inner : ∀ (l : List Nat) (i : Nat) (m : K),
      l.foldl (fun m j => max m |c * A i j|) (c * m) = c * l.foldl (fun m j => max m |A i j|) m := by
    intro l i
    induction l with
    | nil => intro m; rfl
    | cons j l ih =>
      intro m
      rw [List.foldl_cons, List.foldl_cons, ← ih, abs_mul, abs_of_pos hc, mul_max_of_nonneg _ _ hc.le]
  have outer : ∀ (l : List Nat) (m : K),
      l.foldl (fun m i => (List.range n).foldl (fun m j => max m |c * A i j|) m) (c * m) =
        c * l.foldl (fun m i => (List.range n).foldl (fun m j => max m |A i j|) m) m := by
    intro l
    induction l with
    | nil => intro m; rfl
    | cons i l ih =>
      intro m
      rw [List.foldl_cons, List.foldl_cons, inner, ih]
  unfold maxAbs
  have := outer (List.range n) 0
  rw [mul_zero] at this
  exact this

theorem trim_scale {c : K} (hc : 0 < c) (n : Nat) (rtol : K) (A : Mat K) :
    trim n rtol (fun i j => c * A i j) = fun i j => c * trim n rtol A i j := by
  funext i j
  unfold trim
  rw [maxAbs_scale hc, abs_mul, abs_of_pos hc]
  have : (c * |A i j| ≤ rtol * (c * maxAbs n A)) ↔ |A i j| ≤ rtol * maxAbs n A := by
    rw [mul_left_comm, mul_le_mul_iff_right₀ hc]
  simp only [this]
  split
  · simp
  · rfl

theorem stepMatrix_scale (c : K) (inp : Input K) (p : Nat → K) (T : Mat K) (dt : K) :
    stepMatrix inp p T (c * dt) = fun i j => c * stepMatrix inp p T dt i j := by
  funext i j
  unfold stepMatrix
  simp only
  split
  · simp only
    split
    · simp
    · ring
  · ring

theorem stored_scale {c : K} (hc : c ≠ 0) (inp : Input K) (p : Nat → K) (A : Mat K) (t : K) :
    stored inp p (fun i j => c * A i j) (c * t) = stored inp p A t := by
  have h : ∀ i j, p i * (c * A i j) * p j * (1 / (c * t)) = p i * A i j * p j * (1 / t) := by
    intro i j
    by_cases ht : t = 0
    · subst ht; simp
    · field_simp
  unfold stored
  simp only [h]

/-- The loop of the integral: everything that is a length is scaled, what is stored is not. -/
theorem step_scale {c : K} (hc : 0 < c) (inp : Input K) (p : Nat → K) (ks : List Nat) (l : Loop K)
    (T : Mat K) (dt : K) (k : Nat) :
    Flow.step inp p ks ⟨fun i j => c * l.ipt i j, c * l.total, l.out⟩ ((T, c * dt), k) =
      ⟨fun i j => c * (Flow.step inp p ks l ((T, dt), k)).ipt i j,
        c * (Flow.step inp p ks l ((T, dt), k)).total, (Flow.step inp p ks l ((T, dt), k)).out⟩ := by
  have hipt : (if inp.sparse then fun i j => trim inp.n inp.rtol (fun i j => c * l.ipt i j) i j +
        trim inp.n inp.rtol (stepMatrix inp p T (c * dt)) i j
      else fun i j => c * l.ipt i j + stepMatrix inp p T (c * dt) i j : Mat K) =
      fun i j => c * (if inp.sparse then fun i j => trim inp.n inp.rtol l.ipt i j +
        trim inp.n inp.rtol (stepMatrix inp p T dt) i j
      else fun i j => l.ipt i j + stepMatrix inp p T dt i j : Mat K) i j := by
    rw [stepMatrix_scale, trim_scale hc, trim_scale hc]
    funext i j
    split <;> ring
  have htot : c * l.total + c * dt = c * (l.total + dt) := by ring
  unfold Flow.step
  simp only [hipt, htot, stored_scale hc.ne']

theorem integral_clock {c : K} (hc : 0 < c) (s : K) (inp : Input K) (p : Nat → K)
    (Ts : List (Mat K)) (ts : List K) (ks : List Nat) :
    integral inp p Ts (ts.map (affine c s)) ks = integral inp p Ts ts ks := by
  unfold integral
  rw [steps_clock hc, List.zip_map_right, List.zipIdx_map, List.foldl_map]
  have key : ∀ (l : List ((Mat K × K) × Nat)) (a : Loop K),
      l.foldl (fun s e => Flow.step inp p ks s (Prod.map (Prod.map id fun d => c * d) id e))
        ⟨fun i j => c * a.ipt i j, c * a.total, a.out⟩ =
      ⟨fun i j => c * (l.foldl (Flow.step inp p ks) a).ipt i j,
        c * (l.foldl (Flow.step inp p ks) a).total, (l.foldl (Flow.step inp p ks) a).out⟩ := by
    intro l
    induction l with
    | nil => intro a; rfl
    | cons e l ih =>
      intro a
      obtain ⟨⟨T, dt⟩, k⟩ := e
      rw [List.foldl_cons, List.foldl_cons]
      simp only [Prod.map, id_eq]
      rw [step_scale hc]
      exact ih _
  have h0 := key ((Ts.zip (steps ts)).zipIdx) ⟨fun _ _ => 0, 0, []⟩
  simp only [mul_zero] at h0
  rw [h0]

theorem step_input {inp inp' : Input K} (h1 : inp'.n = inp.n) (h2 : inp'.sparse = inp.sparse)
    (h3 : inp'.rtol = inp.rtol) (h4 : inp'.mkl = inp.mkl) (h5 : inp'.sqrt = inp.sqrt) :
    Flow.step inp' = Flow.step inp := by
  funext p ks l e
  simp only [Flow.step, stepMatrix, stored, h1, h2, h3, h4, h5]

theorem construct_clock {c : K} (hc : 0 < c) (s : K) (inp : Input K) (ts : List K)
    (ht : inp.times = some ts) :
    construct (Input.clock c s inp) = (construct inp).map (Obj.clock c s) := by
  have hstep : Flow.step (Input.clock c s inp) = Flow.step inp := step_input rfl rfl rfl rfl rfl
  have htl : tList (Input.clock c s inp) = tList inp := rfl
  unfold construct
  rw [htl]
  cases tList inp with
  | error e => rfl
  | ok Ts =>
    simp only
    have htime : timeList (Input.clock c s inp) Ts.length =
        (timeList inp Ts.length).map (affine c s) := by
      unfold timeList
      simp only [Input.clock, ht, Option.map_some, Option.getD_some]
      split
      · rw [List.map_reverse]
      · rfl
    rw [htime]
    have hgrid : gridIndices (Input.clock c s inp).reverse ((timeList inp Ts.length).map (affine c s))
        (Input.clock c s inp).grid =
        (gridIndices inp.reverse (timeList inp Ts.length) inp.grid).map fun r =>
          r.map fun p => (p.1, affine c s p.2) := gridIndices_clock hc s _ _ _
    rw [hgrid]
    cases gridIndices inp.reverse (timeList inp Ts.length) inp.grid with
    | error e => rfl
    | ok g =>
      simp only [Except.map, Obj.clock, List.map_map]
      have hint : ∀ p ks, integral (Input.clock c s inp) p Ts
          ((timeList inp Ts.length).map (affine c s)) ks = integral inp p Ts (timeList inp Ts.length) ks := by
        intro p ks
        rw [← integral_clock hc s inp]
        unfold integral
        rw [hstep]
      rw [hint]
      rfl

end Verif.Units
