import Verif.FloatFlow.Double
import Verif.Rounding.Nan

/-!
# C109: probabilities whose reciprocal overflows
-/

set_option linter.unusedSectionVars false

namespace Verif.FloatFlow

open Verif.Rounding (NanLaws Arith FSched findLouvain FreshDefault fl nearest exponent exponent_spec C100_nan)
open Verif.Louvain (Clu Params)
open Verif.Partition (Consistent Together)
open Verif.FloatTrans (tiny)

/-- Laws of infinities (`bad`: infinity or NaN) and NaN: both persist in sums and products, and zero
times infinity is NaN. -/
structure InfLaws {F : Type} (o : Ops F) (bad nan : F → Prop) : Prop where
  add_bad : ∀ a b, bad a ∨ bad b → bad (o.add a b)
  mul_bad : ∀ a b, bad a ∨ bad b → bad (o.mul a b)
  mul_nan : ∀ a b, nan a ∨ nan b → nan (o.mul a b)
  sub_nan : ∀ a b, nan a ∨ nan b → nan (o.sub a b)
  dot_bad : ∀ l, (∃ e ∈ l, bad e.1 ∨ bad e.2) → bad (o.dot l)
  dot_nan : ∀ l, (∃ e ∈ l, nan e.1 ∨ nan e.2 ∨ e.1 = o.zero ∧ bad e.2) → nan (o.dot l)

section

variable {F : Type} {o : Ops F} {bad nan : F → Prop} {n : Nat}

theorem matmul_bad_right (h : InfLaws o bad nan) {A B : Mat F} {i j k : Nat} (hk : k < n) (hB : bad (B k j)) :
    bad (matmul o n A B i j) :=
  h.dot_bad _ ⟨(A i k, B k j), List.mem_map.2 ⟨k, List.mem_range.2 hk, rfl⟩, Or.inr hB⟩

theorem matmul_bad_left (h : InfLaws o bad nan) {A B : Mat F} {i j k : Nat} (hk : k < n) (hA : bad (A i k)) :
    bad (matmul o n A B i j) :=
  h.dot_bad _ ⟨(A i k, B k j), List.mem_map.2 ⟨k, List.mem_range.2 hk, rfl⟩, Or.inl hA⟩

/-- One such probability makes every entry of the matrix of the step infinite or NaN. -/
theorem step_bad (h : InfLaws o bad nan) {p : Nat → F} {T : Mat F} {v : Nat} (hv : v < n)
    (hbad : bad (o.div o.one (mass o n p T v))) (dt : F) (i j : Nat) : bad (stepMatrix o n p T dt i j) := by
  unfold stepMatrix
  refine h.mul_bad _ _ (Or.inl (matmul_bad_left h hv (matmul_bad_right h hv ?_)))
  unfold diag
  rw [if_pos rfl]
  exact hbad

theorem acc_bad (h : InfLaws o bad nan) {p : Nat → F} (l : List (Mat F × F))
    (hl : ∃ e ∈ l, ∃ v < n, bad (o.div o.one (mass o n p e.1 v))) (i j : Nat) : bad ((acc o n p l).1 i j) := by
  induction l using List.reverseRecOn with
  | nil => simp at hl
  | append_singleton l e ih =>
    have e1 : (acc o n p (l ++ [e])).1 = fun i j => o.add ((acc o n p l).1 i j) (stepMatrix o n p e.1 e.2 i j) := by
      unfold acc
      rw [List.foldl_append]
      rfl
    rw [e1]
    obtain ⟨x, hx, v, hv, hb⟩ := hl
    rcases List.mem_append.1 hx with hx | hx
    · exact h.add_bad _ _ (Or.inl (ih ⟨x, hx, v, hv, hb⟩))
    · rw [List.mem_singleton] at hx
      subst hx
      exact h.add_bad _ _ (Or.inr (step_bad h hv hb _ _ _))

theorem stored_nan (h : InfLaws o bad nan) (hn : 2 ≤ n) {p : Nat → F} {ipt : Mat F} (hi : ∀ i j, bad (ipt i j))
    (total : F) (i : Nat) {j : Nat} (hj : j < n) : nan (stored o n p ipt total i j) := by
  unfold stored
  refine h.mul_nan _ _ (Or.inl (h.dot_nan _ ⟨(matmul o n (diag o p) ipt i j, diag o p j j),
    List.mem_map.2 ⟨j, List.mem_range.2 hj, rfl⟩, Or.inl ?_⟩))
  obtain ⟨l, hl, hli⟩ : ∃ l < n, i ≠ l := by
    by_cases h0 : i = 0
    · exact ⟨1, by omega, by omega⟩
    · exact ⟨0, by omega, h0⟩
  refine h.dot_nan _ ⟨(diag o p i l, ipt l j), List.mem_map.2 ⟨l, List.mem_range.2 hl, rfl⟩, Or.inr (Or.inr ⟨?_, hi l j⟩)⟩
  unfold diag
  rw [if_neg hli]

/-- **C109, the code fails it** for every arithmetic with infinities: as soon as the reciprocal of
the probability of one node after one step overflows, all covariances, of all pairs of nodes, are
NaN for that step and for all later ones, forward and backward. -/
theorem C109_tiny_violated (h : InfLaws o bad nan) (hn : 2 ≤ n) (p : Nat → F) (Ts : List (Mat F)) (ts : List F)
    {k : Nat} (hk : k < Ts.length) (hk' : k < (steps o ts).length) {v : Nat} (hv : v < n)
    (hbad : bad (o.div o.one (mass o n p (Ts[k]) v))) (ks : List Nat) :
    ∃ J : Nat → Mat F, iList o n p Ts ts ks =
        ((List.range (min Ts.length (steps o ts).length)).filter fun m => decide (m + 1 ∈ ks)).map J ∧
      ∀ m, k ≤ m → ∀ i < n, ∀ j < n, nan (J m i j) := by
  obtain ⟨-, -, h3⟩ := loop_eq o n p ks (Ts.zip (steps o ts))
  refine ⟨fun m i j => o.sub (stored o n p (acc o n p ((Ts.zip (steps o ts)).take (m + 1))).1
    (acc o n p ((Ts.zip (steps o ts)).take (m + 1))).2 i j) (o.mul (p i) (p j)), ?_, ?_⟩
  · unfold iList integral
    rw [h3, List.map_map, List.length_zip]
    rfl
  · intro m hm i _ j hj
    refine h.sub_nan _ _ (Or.inl (stored_nan h hn (acc_bad h _ ⟨(Ts[k], (steps o ts)[k]), ?_, v, hv, hbad⟩) _ i hj))
    rw [List.mem_take_iff_getElem]
    refine ⟨k, by rw [List.length_zip]; omega, ?_⟩
    simp

/-- **C109, the code fails it** silently: the clustering of such a covariance raises nothing and
reports every node as a cluster of its own, for every transition matrix, schedule, threshold and
limit. -/
theorem C109_silent_violated (h : InfLaws o bad nan) {ar : Arith F} (har : NanLaws ar nan) (hn : 2 ≤ n)
    (p : Nat → F) (Ts : List (Mat F)) (ts : List F) {k : Nat} (hk : k < Ts.length) (hk' : k < (steps o ts).length)
    {v : Nat} (hv : v < n) (hbad : bad (o.div o.one (mass o n p (Ts[k]) v))) (ks : List Nat) {q m : Nat}
    (hq : ((List.range (min Ts.length (steps o ts).length)).filter fun m => decide (m + 1 ∈ ks))[q]? = some m)
    (hkm : k ≤ m) (cy : Bool) (sc : FSched) (par : Params F) (c : Clu F) (hc : FreshDefault ar c) (hcn : c.n = n)
    (hcS : (iList o n p Ts ts ks)[q]? = some c.S) :
    ∃ loops part, findLouvain ar cy sc par c = .ok (loops, part) ∧ Consistent part ∧ part.numNodes = n ∧
      ∀ u < n, ∀ w < n, (Together part.clusters u w ↔ u = w) := by
  obtain ⟨J, hJ, hnan⟩ := C109_tiny_violated h hn p Ts ts hk hk' hv hbad ks
  rw [hJ, List.getElem?_map, hq] at hcS
  have hS : c.S = J m := by simpa using hcS.symm
  have := C100_nan cy har sc par c hc (by omega) (fun w hw => by
    rw [hS]
    rw [hcn] at hw
    exact hnan m hkm w hw w hw)
  rw [hcn] at this
  exact this

end

/-! ## Double precision with infinities and NaN -/

/-- A number of double precision.  Zero has no sign here. -/
inductive Num where
  | fin (x : ℚ)
  | inf (neg : Bool)
  | nan
deriving DecidableEq

namespace Num

/-- Rounding to nearest, with gradual underflow and overflow to infinity. -/
def round (x : ℚ) : Num :=
  let y : ℚ := if |x| < tiny then nearest (x * 2 ^ 1074) / 2 ^ 1074 else fl x
  if 2 ^ 1024 ≤ |y| then inf (decide (x < 0)) else fin y

def add : Num → Num → Num
  | fin a, fin b => round (a + b)
  | inf s, inf t => if s = t then inf s else nan
  | inf s, fin _ => inf s
  | fin _, inf t => inf t
  | _, _ => nan

def neg : Num → Num
  | fin a => fin (-a)
  | inf s => inf (!s)
  | nan => nan

def mul : Num → Num → Num
  | fin a, fin b => round (a * b)
  | inf s, inf t => inf (s != t)
  | inf s, fin b => if b = 0 then nan else inf (s != decide (b < 0))
  | fin a, inf t => if a = 0 then nan else inf (t != decide (a < 0))
  | _, _ => nan

def div : Num → Num → Num
  | fin a, fin b => if b = 0 then (if a = 0 then nan else inf (decide (a < 0))) else round (a / b)
  | inf s, fin b => inf (s != decide (b < 0))
  | fin _, inf _ => fin 0
  | _, _ => nan

def lt : Num → Num → Bool
  | fin a, fin b => decide (a < b)
  | inf s, inf t => s && !t
  | inf s, fin _ => s
  | fin _, inf t => !t
  | _, _ => false

def le : Num → Num → Bool
  | fin a, fin b => decide (a ≤ b)
  | inf s, inf t => s || !t
  | inf s, fin _ => s
  | fin _, inf t => !t
  | _, _ => false

/-- Infinite or NaN. -/
def Bad : Num → Prop
  | fin _ => False
  | _ => True

instance (a : Num) : Decidable (Bad a) := by cases a <;> unfold Bad <;> infer_instance

theorem bad_nan : Bad nan := trivial

theorem add_bad (a b : Num) (h : Bad a ∨ Bad b) : Bad (add a b) := by
  cases a <;> cases b <;> simp only [add] <;> (try split_ifs) <;>
    first | trivial | (rcases h with h | h <;> exact False.elim h)

theorem add_nan (a b : Num) (h : a = nan ∨ b = nan) : add a b = nan := by
  cases a <;> cases b <;> simp_all [add]

theorem neg_nan (a : Num) (h : a = nan) : neg a = nan := by rw [h]; rfl

theorem mul_bad (a b : Num) (h : Bad a ∨ Bad b) : Bad (mul a b) := by
  cases a <;> cases b <;> simp only [mul] <;> (try split_ifs) <;>
    first | trivial | (rcases h with h | h <;> exact False.elim h)

theorem mul_nan (a b : Num) (h : a = nan ∨ b = nan) : mul a b = nan := by
  cases a <;> cases b <;> simp_all [mul]

theorem zero_mul_bad (b : Num) (h : Bad b) : mul (fin 0) b = nan := by
  cases b <;> simp_all [mul, Bad]

/-- Products added from left to right. -/
def dot : List (Num × Num) → Num
  | [] => fin 0
  | e :: l => l.foldl (fun s e => add s (mul e.1 e.2)) (mul e.1 e.2)

theorem fold_keep (P : Num → Prop) (hP : ∀ a b, P a ∨ P b → P (add a b)) (l : List (Num × Num)) (s : Num)
    (h : P s ∨ ∃ e ∈ l, P (mul e.1 e.2)) : P (l.foldl (fun s e => add s (mul e.1 e.2)) s) := by
  induction l generalizing s with
  | nil => simpa using h
  | cons e l ih =>
    rw [List.foldl_cons]
    apply ih
    rcases h with h | ⟨x, hx, h⟩
    · exact Or.inl (hP _ _ (Or.inl h))
    · rcases List.mem_cons.1 hx with rfl | hx
      · exact Or.inl (hP _ _ (Or.inr h))
      · exact Or.inr ⟨x, hx, h⟩

theorem dot_keep (P : Num → Prop) (hP : ∀ a b, P a ∨ P b → P (add a b)) (l : List (Num × Num))
    (h : ∃ e ∈ l, P (mul e.1 e.2)) : P (dot l) := by
  cases l with
  | nil => simp at h
  | cons e l =>
    unfold dot
    apply fold_keep P hP
    obtain ⟨x, hx, h⟩ := h
    rcases List.mem_cons.1 hx with rfl | hx
    · exact Or.inl h
    · exact Or.inr ⟨x, hx, h⟩

/-- The operations of double precision. -/
def ops : Ops Num where
  zero := fin 0
  one := fin 1
  add := add
  sub := fun a b => add a (neg b)
  neg := neg
  mul := mul
  div := div
  isZero := fun a => decide (a = fin 0)
  lt := lt
  dot := dot

theorem ops_laws : InfLaws ops Bad (· = nan) where
  add_bad := add_bad
  mul_bad := mul_bad
  mul_nan := mul_nan
  sub_nan := fun a b h => add_nan _ _ (h.imp id (neg_nan b))
  dot_bad := fun l ⟨e, he, h⟩ => dot_keep Bad add_bad l ⟨e, he, mul_bad _ _ h⟩
  dot_nan := fun l ⟨e, he, h⟩ => dot_keep (· = nan) add_nan l ⟨e, he, by
    rcases h with h | h | ⟨h1, h2⟩
    · exact mul_nan _ _ (Or.inl h)
    · exact mul_nan _ _ (Or.inr h)
    · show mul e.1 e.2 = nan
      rw [h1]
      exact zero_mul_bad _ h2⟩

/-- The operations of the clustering in double precision; sums are computed from left to right. -/
def arith : Arith Num where
  zero := fin 0
  one := fin 1
  add := add
  sub := fun a b => add a (neg b)
  neg := neg
  div := div
  sum := fun l => l.foldl add (fin 0)
  sum2 := fun l => l.flatten.foldl add (fin 0)
  le := le
  lt := lt
  isclose := fun a b => match a, b with
    | fin a, fin b => decide (Louvain.isclose a b)
    | inf s, inf t => s == t
    | _, _ => false
  negligible := fun n l => l.all fun r => r.all fun x => match x with
    | fin x => decide (|x| < (1 / 10 ^ 6) / (n : ℚ) ^ 2)
    | _ => false

theorem arith_laws : NanLaws arith (· = nan) where
  add := add_nan
  le := fun a b h => by
    rw [h]
    cases a <;> rfl
  negligible := fun n l ⟨r, hr, x, hx, h⟩ => by
    subst h
    rw [Bool.eq_false_iff]
    intro hall
    have h1 := List.all_eq_true.1 hall r hr
    have h2 := List.all_eq_true.1 h1 nan hx
    simp at h2

/-- A power of two that is at most `x` is at most the rounded `x`. -/
theorem pow_le_fl {x : ℚ} {e : ℤ} (h : (2 : ℚ) ^ e ≤ x) : (2 : ℚ) ^ e ≤ fl x := by
  have hx : 0 < x := lt_of_lt_of_le (zpow_pos (by norm_num) _) h
  rw [fl, if_neg hx.ne', abs_of_pos hx]
  obtain ⟨e1, e2⟩ := exponent_spec hx
  set k := exponent x with hk
  have hp : (0 : ℚ) < 2 ^ (k - 52) := zpow_pos (by norm_num) _
  have hy : ((2 ^ 52 : ℤ) : ℚ) ≤ x / 2 ^ (k - 52) := by
    rw [le_div_iff₀ hp]
    have : ((2 ^ 52 : ℤ) : ℚ) * 2 ^ (k - 52) = 2 ^ k := by
      rw [zpow_sub₀ (by norm_num)]
      norm_num
      ring
    rw [this]
    exact e1
  have hn : (2 ^ 52 : ℤ) ≤ nearest (x / 2 ^ (k - 52)) := (Int.le_floor.2 hy).trans (floor_le_nearest _)
  have hn' : (2 ^ 52 : ℚ) ≤ nearest (x / 2 ^ (k - 52)) := by exact_mod_cast hn
  have h3 : (2 : ℚ) ^ k ≤ nearest (x / 2 ^ (k - 52)) * 2 ^ (k - 52) := by
    refine le_trans (le_of_eq ?_) (mul_le_mul_of_nonneg_right hn' hp.le)
    rw [zpow_sub₀ (by norm_num)]
    have : (2 : ℚ) ^ (52 : ℤ) = 2 ^ 52 := by norm_cast
    rw [this]
    field_simp
  refine le_trans ?_ h3
  have : e < k + 1 := by
    by_contra hc
    have := zpow_le_zpow_right₀ (show (1 : ℚ) ≤ 2 by norm_num) (not_lt.1 hc)
    linarith
  exact zpow_le_zpow_right₀ (by norm_num) (by omega)

/-- The reciprocal of a positive number up to `2^(-1024)` overflows. -/
theorem inv_overflow {x : ℚ} (h0 : 0 < x) (h : x ≤ 1 / 2 ^ 1024) : div (fin 1) (fin x) = inf false := by
  have h1 : (2 : ℚ) ^ (1024 : ℤ) ≤ 1 / x := by
    rw [le_div_iff₀ h0, show (1024 : ℤ) = ((1024 : ℕ) : ℤ) from rfl, zpow_natCast]
    have := mul_le_mul_of_nonneg_left h (show (0 : ℚ) ≤ 2 ^ 1024 by positivity)
    rwa [mul_one_div_cancel (by positivity)] at this
  have h2 := pow_le_fl h1
  rw [show (1024 : ℤ) = ((1024 : ℕ) : ℤ) from rfl, zpow_natCast] at h1 h2
  have hpos : 0 < 1 / x := by positivity
  have ht : ¬ |1 / x| < tiny := by
    rw [abs_of_pos hpos, not_lt]
    refine le_trans ?_ h1
    unfold tiny
    have : (1 : ℚ) / 2 ^ 1022 ≤ 1 := by
      rw [div_le_one (by positivity)]
      exact one_le_pow₀ (by norm_num)
    exact this.trans (one_le_pow₀ (by norm_num))
  have hf : 0 < fl (1 / x) := lt_of_lt_of_le (by positivity) h2
  simp only [div, if_neg h0.ne', round, if_neg ht, abs_of_pos hf, if_pos h2, inf.injEq, decide_eq_false_iff_not, not_lt]
  exact hpos.le

end Num

/-- **C109, the code fails it** in double precision: all covariances from step `k` on are NaN
whenever the probability of some node, after that step, is computed as a positive number of at most
`2^(-1024)` (about `5.6e-309`). -/
theorem C109_double_violated {n : Nat} (hn : 2 ≤ n) (p : Nat → Num) (Ts : List (Mat Num)) (ts : List Num)
    {k : Nat} (hk : k < Ts.length) (hk' : k < (steps Num.ops ts).length) {v : Nat} (hv : v < n) {x : ℚ}
    (hx : Num.dot ((List.range n).map fun i => (p i, Ts[k] i v)) = .fin x) (h0 : 0 < x) (h1 : x ≤ 1 / 2 ^ 1024)
    (ks : List Nat) :
    ∃ J : Nat → Mat Num, iList Num.ops n p Ts ts ks =
        ((List.range (min Ts.length (steps Num.ops ts).length)).filter fun m => decide (m + 1 ∈ ks)).map J ∧
      ∀ m, k ≤ m → ∀ i < n, ∀ j < n, J m i j = .nan := by
  apply C109_tiny_violated Num.ops_laws hn p Ts ts hk hk' hv
  have e : mass Num.ops n p Ts[k] v = .fin x := by
    unfold mass
    show (if decide (Num.dot ((List.range n).map fun i => (p i, Ts[k] i v)) = .fin 0) = true then _ else
      Num.dot ((List.range n).map fun i => (p i, Ts[k] i v))) = _
    rw [hx, if_neg]
    intro hc
    simp only [Num.fin.injEq, decide_eq_true_eq] at hc
    exact h0.ne' hc
  rw [e]
  show Num.Bad (Num.div (.fin 1) (.fin x))
  rw [Num.inv_overflow h0 h1]
  trivial

/-! ## Examples -/

/-- A matrix of finite numbers. -/
def finMat (A : Mat ℚ) : Mat Num := fun i j => .fin (A i j)

/-- **C109, the code fails it**: in double precision the covariances of a flow are not symmetric,
although the exact ones are (two nodes and one step). -/
theorem C109_symmetric_violated :
    (∃ J, iList Num.ops 2 (fun i => .fin (exP i)) [finMat exM] [.fin 0, .fin 1] [0, 1] = [J] ∧ J 0 1 ≠ J 1 0) ∧
      Flow.meanCov 2 exP (Flow.flowSteps 2 false [exM] [0, 1] 1) 0 1 =
        Flow.meanCov 2 exP (Flow.flowSteps 2 false [exM] [0, 1] 1) 1 0 := by
  refine ⟨⟨_, rfl, ?_⟩, ?_⟩
  · decide +kernel
  · decide +kernel

/-- A node that is left with probability close to one in each step: its probability of staying is
`2^(-350)`, a number of ordinary size for a transition probability of a long interval. -/
def leave : Mat Num := fun i j => ([[.fin (1 / 2 ^ 350), .fin 1], [.fin 0, .fin 1]].getD i []).getD j (.fin 0)

/-- Half of the walkers start on each node. -/
def half : Nat → Num := fun _ => .fin (1 / 2)

/-- The cumulative matrices of three steps. -/
def leaveTs : List (Mat Num) := (tList Num.ops 2 false [leave, leave, leave]).getD []

theorem leaveTs_length : leaveTs.length = 3 := rfl

theorem leave_mass : Num.dot ((List.range 2).map fun i => (half i, (leaveTs[2]'(by rw [leaveTs_length]; omega)) i 0)) =
    .fin (1 / 2 ^ 1051) := by
  decide +kernel

/-- The covariance after three steps is NaN. -/
example := C109_double_violated (n := 2) (by omega) half leaveTs [.fin 0, .fin 1, .fin 2, .fin 3] (k := 2)
  (by rw [leaveTs_length]; omega) (by decide +kernel) (v := 0) (by omega) leave_mass (by positivity)
  (by rw [one_div, one_div]; exact inv_anti₀ (by positivity) (pow_le_pow_right₀ (by norm_num) (by norm_num))) [0, 1, 3]

theorem leave_bad : Num.Bad (Num.ops.div Num.ops.one (mass Num.ops 2 half (leaveTs[2]'(by rw [leaveTs_length]; omega)) 0)) := by
  decide +kernel

/-- The clustering object made from that covariance. -/
def leaveClu : Clu Num :=
  { n := 2, T := leaveTs.getD 2 leave, S := (iList Num.ops 2 half leaveTs [.fin 0, .fin 1, .fin 2, .fin 3] [0, 1, 3]).getD 1 leave,
    part := ⟨2, [{0}, {1}], Partition.dictOf [{0}, {1}]⟩ }

theorem leaveClu_fresh : FreshDefault Num.arith leaveClu := by
  unfold FreshDefault Rounding.mkClu
  rw [if_pos (by decide +kernel)]
  rfl

example (cy : Bool) (sc : FSched) (par : Params Num) := C109_silent_violated Num.ops_laws Num.arith_laws (n := 2) (by omega)
  half leaveTs [.fin 0, .fin 1, .fin 2, .fin 3] (k := 2) (by rw [leaveTs_length]; omega) (by decide +kernel)
  (v := 0) (by omega) leave_bad [0, 1, 3] (q := 1) (m := 2) (by decide +kernel) le_rfl cy sc par leaveClu
  leaveClu_fresh rfl rfl

end Verif.FloatFlow
